import Verif.Model.Simple
import Verif.Model.Validate
import Verif.Model.Denormalize
import Verif.Model.Engine

/-! # hiku/console/ui.py: the WSGI application of the console

Texts which the console shows (the template of the page, the script, the documentation of the types), `json.dumps`,
`int` and the formatting of tracebacks are parameters. -/

namespace Hiku.Console

/-- the part of the WSGI environment which the application reads.  `path`, `method`, `script` and `length` are
`PATH_INFO`, `REQUEST_METHOD`, `SCRIPT_NAME` and `CONTENT_LENGTH`; `none` if the key is missing.  `input` are the bytes
which the client sent (`wsgi.input`). -/
structure Environ where
  path : Option String
  method : Option String
  script : Option String := none
  length : Option String := none
  input : List UInt8 := []

/-- the dictionaries given to `json.dumps`, ui.py:121, 125, 129: `{'errors': ..}`, the denormalized result and
`{'traceback': ..}` -/
inductive Json where
  | errors (es : List QErr)
  | data (v : Val)
  | traceback (text : Option String)

/-- what a request causes: calls of `start_response`, calls of `wsgi.input.read` (their arguments), executed queries
(all since the start) and the returned content or an exception -/
structure Out where
  started : List (String × List (String × String))
  reads : List Nat
  log : List QNode
  result : Except Err ByteArray

/-- `ConsoleApplication.__init__`, ui.py:46-54.  `engine log` is `self.engine.execute` (with `self.root` and
`self.ctx`) after the queries of `log` were executed; `lim` is the recursion limit of the validators; `decode` decodes
UTF-8; `read` is `readers.simple.read` for `consoleOf`. -/
structure App where
  H : PyHash
  root : Graph
  lim : Nat
  engine : List QNode → QNode → Except Err (Index × QNode)
  read : String → Except Err QNode
  decode : List UInt8 → Option String
  dumps : Json → Except Err String
  tb : Err → String
  pyInt : String → Option Int
  html : List (String × String) → String
  docs : String
  js : ByteArray
  debug : Bool

/-- `_urls`, ui.py:40-44 -/
def urls : List (String × String) := [("index_url", "/"), ("docs_url", "/docs"), ("js_url", "/console.js")]

/-- `ERROR_CODES`, ui.py:12-28 -/
def errorCodes : Nat → String × String
  | 400 => ("Bad Request", "The browser (or proxy) sent a request that this server could not understand.")
  | 404 => ("Not Found", "The requested URL was not found on the server.  If you entered the URL manually please check your spelling and try again.")
  | _ => ("Method Not Allowed", "The method is not allowed for the requested URL.")

/-- `start_response(status, headers); return [content]` -/
def respond (status : String) (headers : List (String × String)) (content : ByteArray) (reads : List Nat) (log : List QNode) : Out :=
  { started := [(status, headers ++ [("Content-Length", toString content.size)])], reads := reads, log := log, result := .ok content }

/-- an exception which leaves the application before `start_response` -/
def raise (e : Err) (reads : List Nat) (log : List QNode) : Out := { started := [], reads := reads, log := log, result := .error e }

/-- `_error`, ui.py:87-95 -/
def error (code : Nat) (message : Option String) (log : List QNode) : Out :=
  respond (toString code ++ " " ++ (errorCodes code).1) [("Content-Type", "text/plain")]
    (message.getD (errorCodes code).2 ++ "\n").toUTF8 [] log

/-- `str.rstrip('/')` on the characters in reverse order -/
def dropSlashes : List Char → List Char
  | '/' :: r => dropSlashes r
  | l => l

/-- `environ.get('SCRIPT_NAME', '').rstrip('/')`, ui.py:83 -/
def scriptName (env : Environ) : String := String.ofList (dropSlashes (env.script.getD "").toList.reverse).reverse

/-- `_urls_map`, ui.py:82-85 -/
def urlsMap (env : Environ) : List (String × String) := urls.map fun x => (x.1, scriptName env ++ x.2)

/-- `_index_get`, ui.py:97-107 -/
def indexGet (app : App) (env : Environ) (log : List QNode) : Out :=
  respond "200 OK" [("Content-Type", "text/html")] (app.html (urlsMap env)).toUTF8 [] log

/-- the body of the `try` statement, ui.py:116-126: the JSON value and the status, and the executed queries -/
def process (app : App) (pattern : List UInt8) (log : List QNode) : Except Err (Json × String) × List QNode :=
  match app.decode pattern with
  | none => (.error .valueError, log)
  | some src =>
      match app.read src with
      | .error e => (.error e, log)
      | .ok query =>
          match validate app.root app.lim query with
          | .error e => (.error e, log)
          | .ok [] =>
              match app.engine log query with
              | .error e => (.error e, log ++ [query])
              | .ok r =>
                  match denormalize app.H r.1 app.root r.2 with
                  | .error e => (.error e, log ++ [query])
                  | .ok v => (.ok (.data v, "200 OK"), log ++ [query])
          | .ok errors => (.ok (.errors errors, "400 Bad Request"), log)

/-- the `except` clause, ui.py:127-130 -/
def caught (app : App) : Except Err (Json × String) → Json × String
  | .ok r => r
  | .error e => (.traceback (if app.debug then some (app.tb e) else none), "500 Internal Server Error")

/-- `environ.get('CONTENT_LENGTH') or 0`, then `int` and `max(0, ..)`, ui.py:110 -/
def limit (app : App) (env : Environ) : Except Err Nat :=
  match env.length with
  | none | some "" => .ok 0
  | some s =>
      match app.pyInt s with
      | none => .error .valueError
      | some i => .ok i.toNat

/-- `_index_post`, ui.py:109-136 -/
def indexPost (app : App) (env : Environ) (log : List QNode) : Out :=
  match limit app env with
  | .error e => raise e [] log
  | .ok n =>
      if n > 2 ^ 20 then error 400 (some "Payload is too big") log
      else
        let r := process app (env.input.take n) log
        let j := caught app r.1
        match app.dumps j.1 with
        | .error e => raise e [n] r.2
        | .ok text => respond j.2 [("Content-Type", "application/json")] text.toUTF8 [n] r.2

/-- `_docs_get`, ui.py:138-143 -/
def docsGet (app : App) (log : List QNode) : Out := respond "200 OK" [] app.docs.toUTF8 [] log

/-- `_static_get`, ui.py:145-151 -/
def staticGet (app : App) (log : List QNode) : Out :=
  respond "200 OK" [("Content-Type", "text/javascript; charset=UTF-8")] app.js [] log

/-- `environ['PATH_INFO'] or '/'`, ui.py:57 -/
def pathOf (env : Environ) : Option String := env.path.map fun p => if p = "" then "/" else p

/-- `ConsoleApplication.__call__`, ui.py:56-80 -/
def call (app : App) (env : Environ) (log : List QNode) : Out :=
  match pathOf env with
  | none => raise .keyError [] log
  | some path =>
      if path = "/" then
        match env.method with
        | none => raise .keyError [] log
        | some "GET" => indexGet app env log
        | some "POST" => indexPost app env log
        | some _ => error 405 none log
      else if path = "/docs" then
        match env.method with
        | none => raise .keyError [] log
        | some "GET" => docsGet app log
        | some _ => error 405 none log
      else if path = "/console.js" then
        match env.method with
        | none => raise .keyError [] log
        | some "GET" => staticGet app log
        | some _ => error 405 none log
      else error 404 none log

/-- requests handled one after another; the log is kept -/
def serve (app : App) : List Environ → List QNode → List Out
  | [], _ => []
  | env :: r, log =>
      let o := call app env log
      o :: serve app r o.log

/-- the console of a graph, with the readers and the engine of the model -/
def consoleOf (P : PyText) (th : String → Option (Val → Except Err Val)) (envs : List QNode → Env)
    (choose : List QNode → Nat → List Nat → List Nat) (inner fuel lim : Nat) (H : PyHash) (gi : Nat) (root : Graph)
    (decode : List UInt8 → Option String) (dumps : Json → Except Err String) (tb : Err → String) (pyInt : String → Option Int)
    (html : List (String × String) → String) (docs : String) (js : ByteArray) (debug : Bool) : App :=
  { H := H, root := root, lim := lim, engine := fun log q => Hiku.execute (envs log) (choose log) inner fuel gi q,
    read := fun s => simpleRead P th H s.toList, decode := decode, dumps := dumps, tb := tb, pyInt := pyInt,
    html := html, docs := docs, js := js, debug := debug }

end Hiku.Console
