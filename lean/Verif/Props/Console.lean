import Verif.Spec.Console
import Verif.Props.Validate2
import Verif.Props.Accepted
import Verif.Props.Denormalize2
import Verif.Props.EndpointExample
import Verif.Props.Simple

/-! C49: the console -/

namespace Hiku.Console

variable {app : App} {env : Environ} {log : List QNode}

theorem respond_answered {status : String} {headers : List (String × String)} {content : ByteArray} {reads : List Nat} {log : List QNode}
    (h : headers = [] ∨ ∃ t, headers = [("Content-Type", t)]) :
    Answered (respond status headers content reads log) status (dget headers "Content-Type") content := by
  refine ⟨rfl, _, rfl, ?_, ?_⟩
  · rcases h with rfl | ⟨t, rfl⟩ <;> rfl
  · rcases h with rfl | ⟨t, rfl⟩
    · simp
    · simp

theorem error_answered {code : Nat} {message : Option String} {log : List QNode} :
    Answered (error code message log) (toString code ++ " " ++ (errorCodes code).1) (some "text/plain")
      (message.getD (errorCodes code).2 ++ "\n").toUTF8 := by
  have := respond_answered (status := toString code ++ " " ++ (errorCodes code).1) (headers := [("Content-Type", "text/plain")])
    (content := (message.getD (errorCodes code).2 ++ "\n").toUTF8) (reads := []) (log := log) (.inr ⟨_, rfl⟩)
  simpa [error, dget] using this

theorem pathOf_some {p : String} (h : env.path = some p) : pathOf env = some (if p = "" then "/" else p) := by
  rw [pathOf, h]; rfl

theorem pageOf_index {p : String} : pageOf p = some .index ↔ p = "" ∨ p = "/" := by
  unfold pageOf
  split <;> simp_all

theorem pageOf_docs {p : String} : pageOf p = some .docs ↔ p = "/docs" := by
  unfold pageOf
  split <;> simp_all

theorem pageOf_script {p : String} : pageOf p = some .script ↔ p = "/console.js" := by
  unfold pageOf
  split <;> simp_all

theorem pageOf_none {p : String} : pageOf p = none ↔ p ≠ "" ∧ p ≠ "/" ∧ p ≠ "/docs" ∧ p ≠ "/console.js" := by
  unfold pageOf
  split <;> simp_all

theorem call_index {p m : String} (h : Asks env p m) (hp : pageOf p = some .index) :
    call app env log = (match m with
      | "GET" => indexGet app env log
      | "POST" => indexPost app env log
      | _ => error 405 none log) := by
  have : (if p = "" then "/" else p) = "/" := by
    rcases pageOf_index.1 hp with rfl | rfl <;> rfl
  simp only [call, pathOf_some h.1, this, h.2, if_true]
  by_cases h1 : m = "GET"
  · subst h1; rfl
  · by_cases h2 : m = "POST"
    · subst h2; rfl
    · split
      · rename_i e; cases e
      · rename_i e; cases e; exact absurd rfl h1
      · rename_i e; cases e; exact absurd rfl h2
      · split
        · exact absurd rfl h1
        · exact absurd rfl h2
        · rfl

theorem call_docs {p m : String} (h : Asks env p m) (hp : pageOf p = some .docs) :
    call app env log = if m = "GET" then docsGet app log else error 405 none log := by
  have := pageOf_docs.1 hp
  subst this
  simp only [call, pathOf_some h.1, h.2]
  simp only [show (("/docs" : String) = "") = False by simp, if_false, show (("/docs" : String) = "/") = False by simp, if_true]
  split <;> simp_all

theorem call_script {p m : String} (h : Asks env p m) (hp : pageOf p = some .script) :
    call app env log = if m = "GET" then staticGet app log else error 405 none log := by
  have := pageOf_script.1 hp
  subst this
  simp only [call, pathOf_some h.1, h.2]
  simp only [show (("/console.js" : String) = "") = False by simp, if_false, show (("/console.js" : String) = "/") = False by simp,
    show (("/console.js" : String) = "/docs") = False by simp, if_true]
  split <;> simp_all

theorem call_none {p : String} (h : env.path = some p) (hp : pageOf p = none) : call app env log = error 404 none log := by
  obtain ⟨h1, h2, h3, h4⟩ := pageOf_none.1 hp
  simp only [call, pathOf_some h, if_neg h1, if_neg h2, if_neg h3, if_neg h4]

/-! ### Pages -/

/-- C49: the page, with the addresses of the console under the name of the script -/
theorem c49_index {p : String} (h : Asks env p "GET") (hp : pageOf p = some .index) :
    Answered (call app env log) "200 OK" (some "text/html")
      (app.html [("index_url", scriptName env ++ "/"), ("docs_url", scriptName env ++ "/docs"),
        ("js_url", scriptName env ++ "/console.js")]).toUTF8 ∧ Idle (call app env log) log := by
  rw [call_index h hp]
  exact ⟨respond_answered (.inr ⟨_, rfl⟩), rfl, rfl⟩

/-- the address of the script has no slash at its end -/
theorem dropSlashes_spec (l : List Char) : ∃ k, l = List.replicate k '/' ++ dropSlashes l ∧ (dropSlashes l).head? ≠ some '/' := by
  induction l with
  | nil => exact ⟨0, rfl, by simp [dropSlashes]⟩
  | cons c r ih =>
    by_cases hc : c = '/'
    · subst hc
      obtain ⟨k, h1, h2⟩ := ih
      refine ⟨k + 1, ?_, by rw [dropSlashes]; exact h2⟩
      rw [dropSlashes, List.replicate_succ, List.cons_append, ← h1]
    · refine ⟨0, ?_, ?_⟩
      · rw [dropSlashes]
        · rfl
        · intro r' e; cases e; exact hc rfl
      · rw [dropSlashes]
        · simp [hc]
        · intro r' e; cases e; exact hc rfl

/-- C49: `SCRIPT_NAME` without the slashes at its end -/
theorem c49_script_name (env : Environ) : ∃ k, (env.script.getD "").toList = (scriptName env).toList ++ List.replicate k '/' ∧
    (scriptName env).toList.getLast? ≠ some '/' := by
  obtain ⟨k, h1, h2⟩ := dropSlashes_spec (env.script.getD "").toList.reverse
  refine ⟨k, ?_, ?_⟩
  · have := congrArg List.reverse h1
    rw [List.reverse_reverse, List.reverse_append, List.reverse_replicate] at this
    simpa [scriptName] using this
  · simpa [scriptName, List.getLast?_reverse] using h2

/-- C49: the documentation of the types -/
theorem c49_docs (h : Asks env "/docs" "GET") :
    Answered (call app env log) "200 OK" none app.docs.toUTF8 ∧ Idle (call app env log) log := by
  rw [call_docs h rfl, if_pos rfl]
  exact ⟨respond_answered (.inl rfl), rfl, rfl⟩

/-- C49: the script -/
theorem c49_script (h : Asks env "/console.js" "GET") :
    Answered (call app env log) "200 OK" (some "text/javascript; charset=UTF-8") app.js ∧ Idle (call app env log) log := by
  rw [call_script h rfl, if_pos rfl]
  exact ⟨respond_answered (.inr ⟨_, rfl⟩), rfl, rfl⟩

/-- C49: other methods are refused -/
theorem c49_not_allowed {p m : String} {pg : Page} (h : Asks env p m) (hp : pageOf p = some pg) (hg : m ≠ "GET")
    (hm : pg = .index → m ≠ "POST") :
    Answered (call app env log) "405 Method Not Allowed" (some "text/plain") "The method is not allowed for the requested URL.\n".toUTF8 ∧
      Idle (call app env log) log := by
  have key : Answered (error 405 none log) "405 Method Not Allowed" (some "text/plain") "The method is not allowed for the requested URL.\n".toUTF8 ∧
      Idle (error 405 none log) log := ⟨error_answered, rfl, rfl⟩
  cases pg with
  | index =>
    rw [call_index h hp]
    have := hm rfl
    split <;> simp_all
  | docs => rw [call_docs h hp, if_neg hg]; exact key
  | script => rw [call_script h hp, if_neg hg]; exact key

/-- C49: other paths are not found, whatever the method is -/
theorem c49_not_found {p : String} (h : env.path = some p) (hp : pageOf p = none) :
    Answered (call app env log) "404 Not Found" (some "text/plain")
      ("The requested URL was not found on the server.  If you entered the URL manually please check your spelling and try again." ++
        "\n").toUTF8 ∧ Idle (call app env log) log := by
  rw [call_none h hp]
  exact ⟨error_answered (code := 404) (message := none) (log := log), rfl, rfl⟩

/-! ### Queries -/

theorem limit_iff {n : Nat} : limit app env = .ok n ↔ Declares app env n := by
  unfold limit Declares
  split
  · rename_i h; simp [h, eq_comm]
  · rename_i h; simp [h, eq_comm]
  · rename_i s h1 h2
    rw [h2]
    have hs : s ≠ "" := h1
    constructor
    · intro h
      cases hi : app.pyInt s with
      | none => rw [hi] at h; cases h
      | some i => rw [hi] at h; cases h; exact .inr ⟨s, i, hs, rfl, hi, rfl⟩
    · rintro (⟨h, _⟩ | ⟨s', i, _, h, h3, rfl⟩)
      · rcases h with h | h
        · cases h
        · cases h; exact absurd rfl hs
      · cases h; rw [h3]

/-- C49: a request which declares more than 1 MB is refused, nothing is read -/
theorem c49_too_big {p : String} {n : Nat} (h : Asks env p "POST") (hp : pageOf p = some .index) (hn : Declares app env n)
    (hb : 1024 * 1024 < n) :
    Answered (call app env log) "400 Bad Request" (some "text/plain") "Payload is too big\n".toUTF8 ∧ Idle (call app env log) log := by
  rw [call_index h hp]
  simp only [indexPost, limit_iff.2 hn]
  rw [if_pos (show n > 2 ^ 20 by omega)]
  exact ⟨error_answered, rfl, rfl⟩

theorem process_fails {bytes : List UInt8} {e : Err} (h : Fails app bytes log e) :
    (process app bytes log).1 = .error e := by
  cases h with
  | decode h => simp only [process, h]
  | read h1 h2 => simp only [process, h1, h2]
  | validate h1 h2 h3 => simp only [process, h1, h2, h3]
  | execute h1 h2 h3 h4 => simp only [process, h1, h2, h3, h4]
  | denormalize h1 h2 h3 h4 h5 => simp only [process, h1, h2, h3, h4, h5]

/-- all that can happen to the bytes of a request -/
theorem process_cases (bytes : List UInt8) :
    (∃ e, Fails app bytes log e ∧ (process app bytes log).1 = .error e) ∨
    (∃ src q es, app.decode bytes = some src ∧ app.read src = .ok q ∧ es ≠ [] ∧ validate app.root app.lim q = .ok es ∧
      process app bytes log = (.ok (.errors es, "400 Bad Request"), log)) ∨
    (∃ src q r v, app.decode bytes = some src ∧ app.read src = .ok q ∧ validate app.root app.lim q = .ok [] ∧
      app.engine log q = .ok r ∧ denormalize app.H r.1 app.root r.2 = .ok v ∧
      process app bytes log = (.ok (.data v, "200 OK"), log ++ [q])) := by
  cases h1 : app.decode bytes with
  | none => exact .inl ⟨_, .decode h1, process_fails (.decode h1)⟩
  | some src =>
    cases h2 : app.read src with
    | error e => exact .inl ⟨_, .read h1 h2, process_fails (.read h1 h2)⟩
    | ok q =>
      cases h3 : validate app.root app.lim q with
      | error e => exact .inl ⟨_, .validate h1 h2 h3, process_fails (.validate h1 h2 h3)⟩
      | ok es =>
        cases es with
        | cons x r => exact .inr (.inl ⟨src, q, _, rfl, h2, by simp, h3, by simp only [process, h1, h2, h3]⟩)
        | nil =>
          cases h4 : app.engine log q with
          | error e => exact .inl ⟨_, .execute h1 h2 h3 h4, process_fails (.execute h1 h2 h3 h4)⟩
          | ok r =>
            cases h5 : denormalize app.H r.1 app.root r.2 with
            | error e => exact .inl ⟨_, .denormalize h1 h2 h3 h4 h5, process_fails (.denormalize h1 h2 h3 h4 h5)⟩
            | ok v => exact .inr (.inr ⟨src, q, r, v, rfl, h2, h3, h4, h5, by simp only [process, h1, h2, h3, h4, h5]⟩)

theorem post_eq {p : String} {n : Nat} (h : Asks env p "POST") (hp : pageOf p = some .index) (hn : Declares app env n)
    (hb : n ≤ 1024 * 1024) : call app env log =
      (match app.dumps (caught app (process app (env.input.take n) log).1).1 with
        | .error e => raise e [n] (process app (env.input.take n) log).2
        | .ok text => respond (caught app (process app (env.input.take n) log).1).2 [("Content-Type", "application/json")]
            text.toUTF8 [n] (process app (env.input.take n) log).2) := by
  rw [call_index h hp]
  simp only [indexPost, limit_iff.2 hn]
  rw [if_neg (show ¬ n > 2 ^ 20 by omega)]
  rfl

/-- C49: a query with validation errors: 400 with the errors, which are exactly those of C24, nothing is executed -/
theorem c49_invalid {p : String} {n : Nat} {q : QNode} {es : List QErr} {text : String} (h : Asks env p "POST") (hp : pageOf p = some .index)
    (hn : Declares app env n) (hb : n ≤ 1024 * 1024) (hs : Sends app env n q) (hv : validate app.root app.lim q = .ok es) (he : es ≠ [])
    (hd : app.dumps (.errors es) = .ok text) :
    Answered (call app env log) "400 Bad Request" (some "application/json") text.toUTF8 ∧ (call app env log).log = log := by
  obtain ⟨src, h1, h2⟩ := hs
  have hpr : process app (env.input.take n) log = (.ok (.errors es, "400 Bad Request"), log) := by
    cases es with
    | nil => exact absurd rfl he
    | cons => simp only [process, h1, h2, hv]
  rw [post_eq h hp hn hb, hpr]
  simp only [caught, hd]
  exact ⟨respond_answered (.inr ⟨_, rfl⟩), rfl⟩

/-- C49: a valid query is executed once and answered with the JSON of the denormalized result -/
theorem c49_data {p : String} {n : Nat} {q : QNode} {r : Index × QNode} {v : Val} {text : String} (h : Asks env p "POST")
    (hp : pageOf p = some .index) (hn : Declares app env n) (hb : n ≤ 1024 * 1024) (hs : Sends app env n q)
    (hv : validate app.root app.lim q = .ok []) (hr : app.engine log q = .ok r)
    (hx : denormalize app.H r.1 app.root r.2 = .ok v) (hd : app.dumps (.data v) = .ok text) :
    Answered (call app env log) "200 OK" (some "application/json") text.toUTF8 ∧ (call app env log).log = log ++ [q] := by
  obtain ⟨src, h1, h2⟩ := hs
  have hpr : process app (env.input.take n) log = (.ok (.data v, "200 OK"), log ++ [q]) := by
    simp only [process, h1, h2, hv, hr, hx]
  rw [post_eq h hp hn hb, hpr]
  simp only [caught, hd]
  exact ⟨respond_answered (.inr ⟨_, rfl⟩), rfl⟩

/-- C49: everything which fails while the query is read, validated, executed or its result is read: 500, and nothing
about the failure unless the console is in the debug mode -/
theorem c49_failure {p : String} {n : Nat} {e : Err} {text : String} (h : Asks env p "POST") (hp : pageOf p = some .index)
    (hn : Declares app env n) (hb : n ≤ 1024 * 1024) (hf : Fails app (env.input.take n) log e)
    (hd : app.dumps (.traceback (if app.debug then some (app.tb e) else none)) = .ok text) :
    Answered (call app env log) "500 Internal Server Error" (some "application/json") text.toUTF8 := by
  rw [post_eq h hp hn hb, process_fails hf]
  simp only [caught, hd]
  exact respond_answered (.inr ⟨_, rfl⟩)

/-- C49: without the debug mode all failures look the same -/
theorem c49_no_leak {p p' : String} {n n' : Nat} {e e' : Err} {text : String} {env' : Environ} {log' : List QNode} (hdbg : app.debug = false)
    (h : Asks env p "POST") (hp : pageOf p = some .index) (hn : Declares app env n) (hb : n ≤ 1024 * 1024)
    (hf : Fails app (env.input.take n) log e)
    (h' : Asks env' p' "POST") (hp' : pageOf p' = some .index) (hn' : Declares app env' n') (hb' : n' ≤ 1024 * 1024)
    (hf' : Fails app (env'.input.take n') log' e') (hd : app.dumps (.traceback none) = .ok text) :
    (call app env log).started = (call app env' log').started ∧ (call app env log).result = (call app env' log').result := by
  rw [post_eq h hp hn hb, process_fails hf, post_eq h' hp' hn' hb', process_fails hf']
  simp only [caught, hdbg, hd, Bool.false_eq_true, if_false]
  exact ⟨rfl, rfl⟩

/-! ### What every request causes -/

theorem indexPost_cases (app : App) (env : Environ) (log : List QNode) :
    (∃ e, limit app env = .error e ∧ indexPost app env log = raise e [] log) ∨
    (∃ n, limit app env = .ok n ∧ n > 2 ^ 20 ∧ indexPost app env log = error 400 (some "Payload is too big") log) ∨
    (∃ n, limit app env = .ok n ∧ n ≤ 2 ^ 20 ∧ ∃ j, j = caught app (process app (env.input.take n) log).1 ∧
      ((∃ e, app.dumps j.1 = .error e ∧ indexPost app env log = raise e [n] (process app (env.input.take n) log).2) ∨
       (∃ text, app.dumps j.1 = .ok text ∧
        indexPost app env log = respond j.2 [("Content-Type", "application/json")] text.toUTF8 [n] (process app (env.input.take n) log).2))) := by
  cases h : limit app env with
  | error e => exact .inl ⟨e, rfl, by simp only [indexPost, h]⟩
  | ok n =>
    by_cases hb : n > 2 ^ 20
    · exact .inr (.inl ⟨n, rfl, hb, by simp only [indexPost, h]; rw [if_pos hb]⟩)
    · refine .inr (.inr ⟨n, rfl, by omega, _, rfl, ?_⟩)
      cases hd : app.dumps (caught app (process app (env.input.take n) log).1).1 with
      | error e => exact .inl ⟨e, rfl, by simp only [indexPost, h]; rw [if_neg hb]; simp only [hd]⟩
      | ok text => exact .inr ⟨text, rfl, by simp only [indexPost, h]; rw [if_neg hb]; simp only [hd]⟩

/-- what `call` can be -/
theorem call_cases (app : App) (env : Environ) (log : List QNode) :
    ((env.path = none ∨ env.method = none) ∧ call app env log = raise .keyError [] log) ∨
    (∃ code, call app env log = error code none log) ∨
    (∃ st hs c, (hs = [] ∨ ∃ t, hs = [("Content-Type", t)]) ∧ call app env log = respond st hs c [] log) ∨
    (∃ p, Asks env p "POST" ∧ pageOf p = some .index ∧ call app env log = indexPost app env log) := by
  cases hp : env.path with
  | none => exact .inl ⟨.inl rfl, (by simp [call, pathOf, hp])⟩
  | some p =>
    cases hg : pageOf p with
    | none => exact .inr (.inl ⟨404, call_none hp hg⟩)
    | some pg =>
      cases hm : env.method with
      | none =>
        refine .inl ⟨.inr rfl, ?_⟩
        simp only [call, pathOf_some hp, hm]
        have hn : ¬ pageOf p = none := by rw [hg]; simp
        rw [pageOf_none] at hn
        by_cases h1 : (if p = "" then "/" else p) = "/"
        · rw [if_pos h1]
        · rw [if_neg h1]
          by_cases h2 : (if p = "" then "/" else p) = "/docs"
          · rw [if_pos h2]
          · rw [if_neg h2]
            by_cases h3 : (if p = "" then "/" else p) = "/console.js"
            · rw [if_pos h3]
            · exfalso
              apply hn
              have h4 : p ≠ "" := by rintro rfl; exact h1 rfl
              rw [if_neg h4] at h1 h2 h3
              exact ⟨h4, h1, h2, h3⟩
      | some m =>
        have ha : Asks env p m := ⟨hp, hm⟩
        cases pg with
        | index =>
          rw [call_index ha hg]
          by_cases h1 : m = "GET"
          · subst h1; exact .inr (.inr (.inl ⟨_, _, _, .inr ⟨_, rfl⟩, rfl⟩))
          · by_cases h2 : m = "POST"
            · subst h2; exact .inr (.inr (.inr ⟨p, ha, hg, rfl⟩))
            · refine .inr (.inl ⟨405, ?_⟩)
              split <;> simp_all
        | docs =>
          rw [call_docs ha hg]
          by_cases h1 : m = "GET"
          · rw [if_pos h1]; exact .inr (.inr (.inl ⟨_, _, _, .inl rfl, rfl⟩))
          · rw [if_neg h1]; exact .inr (.inl ⟨405, rfl⟩)
        | script =>
          rw [call_script ha hg]
          by_cases h1 : m = "GET"
          · rw [if_pos h1]; exact .inr (.inr (.inl ⟨_, _, _, .inr ⟨_, rfl⟩, rfl⟩))
          · rw [if_neg h1]; exact .inr (.inl ⟨405, rfl⟩)

/-- C49: whatever is requested, either the client gets exactly one answer which declares its length, or an exception
escapes and nothing was started. -/
theorem c49_once (app : App) (env : Environ) (log : List QNode) :
    (∃ status type content, Answered (call app env log) status type content) ∨ ∃ e, Escaped (call app env log) e := by
  rcases call_cases app env log with ⟨_, h⟩ | ⟨code, h⟩ | ⟨st, hs, c, h1, h⟩ | ⟨p, _, _, h⟩
  · exact .inr ⟨_, by rw [h]; exact ⟨rfl, rfl⟩⟩
  · exact .inl ⟨_, _, _, by rw [h]; exact error_answered⟩
  · exact .inl ⟨_, _, _, by rw [h]; exact respond_answered h1⟩
  · rw [h]
    rcases indexPost_cases app env log with ⟨e, _, h1⟩ | ⟨n, _, _, h1⟩ | ⟨n, _, _, j, _, ⟨e, _, h1⟩ | ⟨text, _, h1⟩⟩
    · exact .inr ⟨e, by rw [h1]; exact ⟨rfl, rfl⟩⟩
    · exact .inl ⟨_, _, _, by rw [h1]; exact error_answered⟩
    · exact .inr ⟨e, by rw [h1]; exact ⟨rfl, rfl⟩⟩
    · exact .inl ⟨_, _, _, by rw [h1]; exact respond_answered (.inr ⟨_, rfl⟩)⟩

/-- C49: at most the declared length is read, at most 1 MB and at most once, and only for queries. -/
theorem c49_reads (app : App) (env : Environ) (log : List QNode) : (call app env log).reads = [] ∨
    ∃ p n, Asks env p "POST" ∧ pageOf p = some .index ∧ Declares app env n ∧ n ≤ 1024 * 1024 ∧ (call app env log).reads = [n] := by
  rcases call_cases app env log with ⟨_, h⟩ | ⟨code, h⟩ | ⟨st, hs, c, h1, h⟩ | ⟨p, hp, hg, h⟩
  · exact .inl (by rw [h]; rfl)
  · exact .inl (by rw [h]; rfl)
  · exact .inl (by rw [h]; rfl)
  · rw [h]
    rcases indexPost_cases app env log with ⟨e, _, h1⟩ | ⟨n, _, _, h1⟩ | ⟨n, h2, h3, j, _, ⟨e, _, h1⟩ | ⟨text, _, h1⟩⟩
    · exact .inl (by rw [h1]; rfl)
    · exact .inl (by rw [h1]; rfl)
    · exact .inr ⟨p, n, hp, hg, limit_iff.1 h2, by omega, by rw [h1]; rfl⟩
    · exact .inr ⟨p, n, hp, hg, limit_iff.1 h2, by omega, by rw [h1]; rfl⟩

theorem process_log (bytes : List UInt8) : (process app bytes log).2 = log ∨ ∃ src q, app.decode bytes = some src ∧
    app.read src = .ok q ∧ validate app.root app.lim q = .ok [] ∧ (process app bytes log).2 = log ++ [q] := by
  cases h1 : app.decode bytes with
  | none => exact .inl (by simp only [process, h1])
  | some src =>
    cases h2 : app.read src with
    | error e => exact .inl (by simp only [process, h1, h2])
    | ok q =>
      cases h3 : validate app.root app.lim q with
      | error e => exact .inl (by simp only [process, h1, h2, h3])
      | ok es =>
        cases es with
        | cons x r => exact .inl (by simp only [process, h1, h2, h3])
        | nil =>
          refine .inr ⟨src, q, rfl, h2, h3, ?_⟩
          simp only [process, h1, h2, h3]
          cases app.engine log q with
          | error e => rfl
          | ok r =>
            simp only
            cases denormalize app.H r.1 app.root r.2 <;> rfl

/-- C49: only valid queries are executed: a request causes no execution, or it is a POST with the text of a valid query
and exactly that query is executed once.  Whatever the answer is. -/
theorem c49_only_valid (app : App) (env : Environ) (log : List QNode) : (call app env log).log = log ∨
    ∃ p n q, Asks env p "POST" ∧ pageOf p = some .index ∧ Declares app env n ∧ n ≤ 1024 * 1024 ∧ Sends app env n q ∧
      QueryValid app.root app.root.root q ∧ (call app env log).log = log ++ [q] := by
  rcases call_cases app env log with ⟨_, h⟩ | ⟨code, h⟩ | ⟨st, hs, c, h1, h⟩ | ⟨p, hp, hg, h⟩
  · exact .inl (by rw [h]; rfl)
  · exact .inl (by rw [h]; rfl)
  · exact .inl (by rw [h]; rfl)
  · rw [h]
    have key : ∀ n, limit app env = .ok n → n ≤ 2 ^ 20 → (indexPost app env log).log = (process app (env.input.take n) log).2 →
        (indexPost app env log).log = log ∨ ∃ p n q, Asks env p "POST" ∧ pageOf p = some .index ∧ Declares app env n ∧
          n ≤ 1024 * 1024 ∧ Sends app env n q ∧ QueryValid app.root app.root.root q ∧ (indexPost app env log).log = log ++ [q] := by
      intro n h2 h3 h4
      rw [h4]
      rcases process_log (app := app) (log := log) (env.input.take n) with h5 | ⟨src, q, h5, h6, h7, h8⟩
      · exact .inl h5
      · exact .inr ⟨p, n, q, hp, hg, limit_iff.1 h2, by omega, ⟨src, h5, h6⟩, (c24_valid h7).1 rfl, h8⟩
    rcases indexPost_cases app env log with ⟨e, _, h1⟩ | ⟨n, _, _, h1⟩ | ⟨n, h2, h3, j, _, ⟨e, _, h1⟩ | ⟨text, _, h1⟩⟩
    · exact .inl (by rw [h1]; rfl)
    · exact .inl (by rw [h1]; rfl)
    · exact key n h2 h3 (by rw [h1]; rfl)
    · exact key n h2 h3 (by rw [h1]; rfl)

/-- C49 for any number of requests: all executed queries were valid. -/
theorem c49_serve {app : App} : ∀ (envs : List Environ) (log : List QNode), (∀ q ∈ log, QueryValid app.root app.root.root q) →
    ∀ o ∈ serve app envs log, ∀ q ∈ o.log, QueryValid app.root app.root.root q := by
  intro envs
  induction envs with
  | nil => intro log _ o ho; cases ho
  | cons env r ih =>
    intro log hl o ho
    have hnew : ∀ q ∈ (call app env log).log, QueryValid app.root app.root.root q := by
      rcases c49_only_valid app env log with h | ⟨p, n, q', _, _, _, _, _, h1, h⟩
      · rw [h]; exact hl
      · rw [h]
        intro q hq
        rcases List.mem_append.1 hq with hq | hq
        · exact hl q hq
        · simp at hq; subst hq; exact h1
    rw [serve] at ho
    rcases List.mem_cons.1 ho with rfl | ho
    · exact hnew
    · exact ih _ hnew o ho

/-- C49: every request with a path, a method and a length which is a number (or missing) is answered, provided that the
results of queries are JSON serializable (otherwise exceptions escape: `c49_no_path`, `c49_bad_length`,
`c49_not_json`). -/
theorem c49_answers {p m : String} (h : Asks env p m) (hn : ∃ n, Declares app env n) (hd : ∀ j, ∃ text, app.dumps j = .ok text) :
    ∃ status type content, Answered (call app env log) status type content := by
  rcases call_cases app env log with ⟨h1, _⟩ | ⟨code, h⟩ | ⟨st, hs, c, h1, h⟩ | ⟨p, hp, hg, h⟩
  · rw [h.1, h.2] at h1
    rcases h1 with h1 | h1 <;> cases h1
  · exact ⟨_, _, _, by rw [h]; exact error_answered⟩
  · exact ⟨_, _, _, by rw [h]; exact respond_answered h1⟩
  · rw [h]
    obtain ⟨n, hn⟩ := hn
    rcases indexPost_cases app env log with ⟨e, h2, _⟩ | ⟨n, _, _, h1⟩ | ⟨n, _, _, j, _, ⟨e, h2, _⟩ | ⟨text, _, h1⟩⟩
    · rw [limit_iff.2 hn] at h2; cases h2
    · exact ⟨_, _, _, by rw [h1]; exact error_answered⟩
    · obtain ⟨t, ht⟩ := hd j.1
      rw [ht] at h2; cases h2
    · exact ⟨_, _, _, by rw [h1]; exact respond_answered (.inr ⟨_, rfl⟩)⟩

/-- C49: exceptions escape only if the path or the method is missing, or the length of a query is not a number, or a
result is not JSON serializable. -/
theorem c49_escapes {e : Err} (h : Escaped (call app env log) e) : (env.path = none ∨ env.method = none) ∨
    ∃ p, Asks env p "POST" ∧ pageOf p = some .index ∧ ((¬ ∃ n, Declares app env n) ∨ ∃ j, app.dumps j = .error e) := by
  rcases call_cases app env log with ⟨h1, _⟩ | ⟨code, h1⟩ | ⟨st, hs, c, _, h1⟩ | ⟨p, hp, hg, h1⟩
  · exact .inl h1
  · have := h.error; rw [h1] at this; cases this
  · have := h.error; rw [h1] at this; cases this
  · refine .inr ⟨p, hp, hg, ?_⟩
    have he := h.error
    rw [h1] at he
    rcases indexPost_cases app env log with ⟨e', h2, _⟩ | ⟨n, _, _, h2⟩ | ⟨n, _, _, j, _, ⟨e', h2, h3⟩ | ⟨text, _, h2⟩⟩
    · refine .inl ?_
      rintro ⟨n, hn⟩
      rw [limit_iff.2 hn] at h2
      cases h2
    · rw [h2] at he; cases he
    · rw [h3] at he; cases he; exact .inr ⟨_, h2⟩
    · rw [h2] at he; cases he

/-! ### With the engine -/

section
variable {D : Data} {U : String → Opts → Prop}

/-- C49 with C20 and C06: a valid query (which selects on links only) is answered with the JSON of its value in the
reference semantics. -/
theorem c49_value {env0 : Env} (hgood : GoodSys U env0.sys) (hH : Faithful env0.H D U) (hconf : Conforms env0 D U)
    {choose : Nat → List Nat → List Nat} (hch : ValidChoice choose) {inner fuel gi : Nat}
    (hg : env0.sys.graphs[gi]? = some app.root) (hapH : app.H = env0.H)
    (heng : ∀ q, app.engine log q = Hiku.execute env0 choose inner fuel gi q)
    {p : String} {n : Nat} {q : QNode} (h : Asks env p "POST") (hp : pageOf p = some .index)
    (hn : Declares app env n) (hb : n ≤ 1024 * 1024) (hs : Sends app env n q) (hv : validate app.root app.lim q = .ok [])
    (hl : LinksOnly app.root app.root.root q) (hu : UniqueKeys q)
    (hf : costQuery env0.sys 1 0 gi q < fuel) (hin : 1 + costQuery env0.sys 0 1 gi q < inner) :
    ∃ q', initOptions app.root q = .ok q' ∧
      ((∀ p node i, ItemAt app.root app.root.root q' p node i → U i.name i.options) →
        ∀ text, app.dumps (.data (semQuery env0.sys D gi q')) = .ok text →
        Answered (call app env log) "200 OK" (some "application/json") text.toUTF8 ∧ (call app env log).log = log ++ [q]) := by
  obtain ⟨q', h1, h2⟩ := init_valid _ app.root.root ((c24_valid hv).1 rfl)
  refine ⟨q', h1, fun hU text hd => ?_⟩
  have hq := h2 U (Endpoint.linksOnly_ordered _ _ hl) hU
  have hl' := Endpoint.init_linksOnly _ _ _ h1 hl
  have hu' := Endpoint.init_unique _ _ _ h1 hl hu
  obtain ⟨idx, he, _⟩ := c06_result hgood hH hconf hch hg h1 hq hf hin
  have hx := c20_value hgood hH hconf hch hg h1 hq hu' hl' hf hin he
  exact c49_data h hp hn hb hs hv (by rw [heng, he]) (by rw [hapH]; exact hx) hd

end

/-! ### Examples -/

/-- `[{:tracks [:label {:album [:name]}]}]` -/
def exText : List Char := ['[', '{', ':', 't', 'r', 'a', 'c', 'k', 's', ' ', '[', ':', 'l', 'a', 'b', 'e', 'l', ' ', '{', ':', 'a', 'l', 'b', 'u', 'm', ' ',
  '[', ':', 'n', 'a', 'm', 'e', ']', '}', ']', '}', ']']

/-- the example has three texts, encoded with one byte -/
def exDecode : List UInt8 → Option String
  | [1] => some (String.ofList exText)
  | [2] => some "[:nope]"
  | [3] => some "{}"
  | _ => none

/-- only texts and tracebacks can be serialized -/
def exJson : Json → Except Err String
  | .data (.map _ _) => .ok "{}"
  | .data _ => .error .typeError
  | .errors _ => .ok "{'errors': []}"
  | .traceback _ => .ok "{'traceback': null}"

def exApp (inner fuel : Nat) : App :=
  consoleOf exPyText noTags (fun _ => exEnv) (fun _ _ l => l.take 1) inner fuel 5 exEnv.H 1 exHigh exDecode exJson (fun _ => "")
    (fun s => if s = "many" then none else if s = "2000000" then some 2000000 else some 1) (fun _ => "<html>") "type Track" ByteArray.empty false

/-- POST of a text -/
def exPost (text : UInt8) : Environ := { path := some "/", method := some "POST", length := some "1", input := [text] }

theorem exRead : simpleRead exPyText noTags exEnv.H exText = .ok exQuery := rfl

theorem exSends (inner fuel : Nat) : Sends (exApp inner fuel) (exPost 1) 1 exQuery :=
  ⟨String.ofList exText, rfl, by
    have := exRead
    simpa [exApp, consoleOf] using this⟩

theorem exDeclares (inner fuel : Nat) (c : UInt8) : Declares (exApp inner fuel) (exPost c) 1 :=
  .inr ⟨"1", 1, (by decide), rfl, rfl, rfl⟩

theorem exConsoleValid : validate exHigh 5 exQuery = .ok [] := rfl

/-- all hypotheses of `c49_value` hold for the example -/
theorem exAnswered (log : List QNode) : Answered (call (exApp 20 20) (exPost 1) log) "200 OK" (some "application/json") "{}".toUTF8 ∧
    (call (exApp 20 20) (exPost 1) log).log = log ++ [exQuery] := by
  obtain ⟨q', h1, h2⟩ := c49_value (app := exApp 20 20) (env := exPost 1) (log := log) exGood exFaithful exConforms validChoice_first (gi := 1) rfl rfl (fun _ => rfl)
    ⟨rfl, rfl⟩ rfl (exDeclares 20 20 1) (by omega) (exSends 20 20) exConsoleValid exQuery_linksOnly exQuery_unique (by rw [exCost]; omega) (by rw [exForks]; omega)
  have e : initOptions exHigh exQuery = .ok exQuery := rfl
  have h1' : initOptions exHigh exQuery = .ok q' := h1
  rw [e] at h1'
  cases h1'
  refine h2 ?_ _ rfl
  intro p node i hi
  have := Endpoint.itemAt_mem hi
  simp only [exQuery, Endpoint.allItems, Endpoint.allItemsL, List.append_nil, List.nil_append, List.cons_append, List.mem_cons,
    List.not_mem_nil, or_false] at this
  rcases this with rfl | rfl | rfl | rfl <;> rfl

/-! ### Defects -/

/-- Python servers may omit an empty `PATH_INFO` (PEP 3333): KeyError -/
theorem c49_no_path (log : List QNode) : Escaped (call (exApp 20 20) { path := none, method := some "GET" } log) .keyError := ⟨rfl, rfl⟩

/-- a length which is not a number: ValueError -/
theorem c49_bad_length (log : List QNode) :
    Escaped (call (exApp 20 20) { path := some "/", method := some "POST", length := some "many" } log) .valueError := ⟨rfl, rfl⟩

/-- a result which is not JSON serializable: TypeError, after the query was executed -/
theorem c49_not_json {app : App} {p : String} {n : Nat} {q : QNode} {r : Index × QNode} {v : Val} (h : Asks env p "POST")
    (hp : pageOf p = some .index) (hn : Declares app env n) (hb : n ≤ 1024 * 1024) (hs : Sends app env n q)
    (hv : validate app.root app.lim q = .ok []) (hr : app.engine log q = .ok r)
    (hx : denormalize app.H r.1 app.root r.2 = .ok v) (hd : app.dumps (.data v) = .error .typeError) :
    Escaped (call app env log) .typeError ∧ (call app env log).log = log ++ [q] := by
  obtain ⟨src, h1, h2⟩ := hs
  have hpr : process app (env.input.take n) log = (.ok (.data v, "200 OK"), log ++ [q]) := by
    simp only [process, h1, h2, hv, hr, hx]
  rw [post_eq h hp hn hb, hpr]
  simp only [caught, hd]
  exact ⟨⟨rfl, rfl⟩, rfl⟩

/-! ### Other answers of the example -/

example (log : List QNode) : Answered (call (exApp 20 20) { path := some "", method := some "GET", script := some "/api//" } log)
    "200 OK" (some "text/html") "<html>".toUTF8 := (c49_index ⟨rfl, rfl⟩ rfl).1
example : scriptName { path := some "", method := some "GET", script := some "/api//" } = "/api" := rfl
example (log : List QNode) : Answered (call (exApp 20 20) { path := some "/", method := some "POST", length := some "2000000" } log)
    "400 Bad Request" (some "text/plain") "Payload is too big\n".toUTF8 :=
  (c49_too_big ⟨rfl, rfl⟩ rfl (.inr ⟨_, 2000000, (by decide), rfl, rfl, rfl⟩) (by decide)).1
example (log : List QNode) : Answered (call (exApp 20 20) (exPost 2) log) "400 Bad Request" (some "application/json") "{'errors': []}".toUTF8 :=
  (c49_invalid (n := 1) (q := .mk [.field "nope" none none] false) ⟨rfl, rfl⟩ rfl (exDeclares 20 20 2) (by decide) ⟨_, rfl, rfl⟩ rfl (by simp) rfl).1
example (log : List QNode) : Answered (call (exApp 20 20) (exPost 3) log) "500 Internal Server Error" (some "application/json") "{'traceback': null}".toUTF8 :=
  c49_failure (n := 1) ⟨rfl, rfl⟩ rfl (exDeclares 20 20 3) (by decide) (.read (e := .typeError) rfl rfl) rfl

end Hiku.Console
