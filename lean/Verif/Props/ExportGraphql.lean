import Verif.Spec.ExportGraphql
import Verif.Proofs.Basic
import Verif.Props.Merge
import Verif.Props.Edn

/-! # C31: queries survive export to and reading from GraphQL -/

namespace Hiku

mutual
theorem gqlEncode_read : (v : Val) → Json v → ∃ a, gqlEncode v = .ok a ∧ ∀ vars, readVal vars a = .ok v
  | .none, _ | .bool _, _ | .int _, _ | .float _, _ | .str _, _ => ⟨_, rfl, fun _ => by simp [readVal]⟩
  | .kw _, h | .sym _, h | .nothing, h | .seq .tup _, h | .seq .elist _, h | .seq .etup _, h | .seq .set _, h | .seq .eset _, h
  | .map .edict _, h | .tagged .., h | .ref .., h => by simp [Json] at h
  | .seq .list xs, h => by
    obtain ⟨as, h1, h2⟩ := gqlEncodes_read xs (by simpa [Json] using h)
    exact ⟨.list as, by simp [gqlEncode, h1], fun vars => by simp [readVal, h2]⟩
  | .map .dict kvs, h => by
    simp only [Json] at h
    obtain ⟨as, h1, h2⟩ := gqlEncodeKvs_read kvs h.1
    refine ⟨.obj as, by simp [gqlEncode, h1], fun vars => ?_⟩
    obtain ⟨r, hr, hm⟩ := h2 vars
    simp only [readVal, hr, ok_bind', hm]
    rw [dmk_nodup h.2]
theorem gqlEncodes_read : (xs : List Val) → JsonList xs → ∃ as, gqlEncodeList xs = .ok as ∧ ∀ vars, readVals vars as = .ok xs
  | [], _ => ⟨[], rfl, fun _ => rfl⟩
  | x :: r, h => by
    simp only [JsonList] at h
    obtain ⟨a, h1, h2⟩ := gqlEncode_read x h.1
    obtain ⟨as, h3, h4⟩ := gqlEncodes_read r h.2
    exact ⟨a :: as, by simp [gqlEncodeList, h1, h3], fun vars => by simp [readVals, h2, h4]⟩
theorem gqlEncodeKvs_read : (kvs : List (Val × Val)) → JsonKvs kvs → ∃ as, gqlEncodeKvs kvs = .ok as ∧
    ∀ vars, ∃ r, readArgs vars as = .ok r ∧ r.map (fun kv => ((.str kv.1 : Val), kv.2)) = kvs
  | [], _ => ⟨[], rfl, fun _ => ⟨[], rfl, rfl⟩⟩
  | (k, v) :: r, h => by
    simp only [JsonKvs] at h
    obtain ⟨⟨s, rfl⟩, hv, hr⟩ := h
    obtain ⟨a, h1, h2⟩ := gqlEncode_read v hv
    obtain ⟨as, h3, h4⟩ := gqlEncodeKvs_read r hr
    refine ⟨(s, a) :: as, by simp [gqlEncodeKvs, gqlName, h1, h3], fun vars => ?_⟩
    obtain ⟨t, ht, hm⟩ := h4 vars
    exact ⟨(s, v) :: t, by simp [readArgs, h2, ht], by simp [hm]⟩
end

theorem gqlArgs_read {o : Opts} (h : JsonOpts o) : ∃ args, gqlArgs o = .ok args ∧ ∀ vars, readOptions vars args = .ok (noEmpty o) := by
  cases o with
  | none => exact ⟨[], rfl, fun _ => rfl⟩
  | some kvs =>
    obtain ⟨hn, hj⟩ := h kvs rfl
    have key : ∀ kvs : List (String × Val), (∀ kv ∈ kvs, Json kv.2) → ∃ args, gqlArgs (some kvs) = .ok args ∧
        args.length = kvs.length ∧ ∀ vars, readArgs vars args = .ok kvs := by
      intro kvs
      induction kvs with
      | nil => intro _; exact ⟨[], rfl, rfl, fun _ => rfl⟩
      | cons kv r ih =>
        intro h
        obtain ⟨as, h1, h2, h3⟩ := ih fun kv hkv => h kv (List.mem_cons_of_mem _ hkv)
        obtain ⟨a, h4, h5⟩ := gqlEncode_read kv.2 (h kv List.mem_cons_self)
        refine ⟨(kv.1, a) :: as, ?_, by simp [h2], fun vars => by simp [readArgs, h5, h3]⟩
        simp only [gqlArgs] at h1
        simp [gqlArgs, List.mapM_cons, h4, h1]
    obtain ⟨args, h1, h2, h3⟩ := key kvs hj
    refine ⟨args, h1, fun vars => ?_⟩
    cases kvs with
    | nil =>
      have : args = [] := by simpa using h2
      subst this
      rfl
    | cons kv r =>
      have : args.isEmpty = false := by
        cases args with
        | nil => simp at h2
        | cons => rfl
      simp only [readOptions, this, Bool.false_eq_true, if_false, h3, ok_bind', noEmpty]
      rw [dmk_nodup hn]

mutual
theorem gqlItem_read : (i : QItem) → JsonItem i → ∃ s, gqlExportItem i = .ok s ∧
    ∀ vars frag c, readSel vars frag c s = .ok ([gqlItem i], c)
  | .field n o a, h => by
    obtain ⟨args, h1, h2⟩ := gqlArgs_read (o := o) (by simpa [JsonItem] using h)
    exact ⟨.leaf n a args [], by simp [gqlExportItem, h1], fun vars frag c => by simp [readSel, shouldSkip, h2, gqlItem]⟩
  | .link n q o a, h => by
    simp only [JsonItem] at h
    obtain ⟨args, h1, h2⟩ := gqlArgs_read h.1
    obtain ⟨ss, h3, h4⟩ := gqlNode_read q h.2
    refine ⟨.obj n a args [] ss, by simp [gqlExportItem, h1, h3], fun vars frag c => ?_⟩
    obtain ⟨items, h5, h6⟩ := h4 vars frag c
    simp [readSel, shouldSkip, h2, gqlItem, h5, h6]
theorem gqlNode_read : (q : QNode) → JsonQuery q → ∃ ss, gqlExportNode q = .ok ss ∧
    ∀ vars frag c, ∃ items, readSels vars frag c ss = .ok (items, c) ∧ gqlQuery q = .mk items false
  | .mk fs ord, h => by
    obtain ⟨ss, h1, h2⟩ := gqlItems_read fs (by simpa [JsonQuery] using h)
    exact ⟨ss, by simp [gqlExportNode, h1], fun vars frag c => ⟨_, h2 vars frag c, by simp [gqlQuery]⟩⟩
theorem gqlItems_read : (fs : List QItem) → JsonItems fs → ∃ ss, gqlExportItems fs = .ok ss ∧
    ∀ vars frag c, readSels vars frag c ss = .ok (gqlItems fs, c)
  | [], _ => ⟨[], rfl, fun _ _ _ => rfl⟩
  | i :: r, h => by
    simp only [JsonItems] at h
    obtain ⟨s, h1, h2⟩ := gqlItem_read i h.1
    obtain ⟨ss, h3, h4⟩ := gqlItems_read r h.2
    exact ⟨s :: ss, by simp [gqlExportItems, h1, h3], fun vars frag c => by simp [readSels, h2, h4, gqlItems]⟩
end

/-- C31: every query with JSON options is exported, and the document is read as the merged query, aliases included, with
`None` in place of empty options and `ordered` lost -/
theorem c31_view (H : PyHash) {q : QNode} (h : JsonQuery q) :
    ∃ doc, gqlExport q = .ok doc ∧ ∀ given, readGraphql H doc given none = .ok (merge H [gqlQuery q]) := by
  obtain ⟨ss, h1, h2⟩ := gqlNode_read q h
  refine ⟨_, by simp [gqlExport, h1]; rfl, fun given => ?_⟩
  obtain ⟨items, h3, h4⟩ := h2 [] (readFrag [] [] 1 []) []
  simp [readGraphql, getOp, collectOps, dhas, dget, dset, readOp, readOpF, readVars, collectFrags, h3, h4]

theorem noEmpty_tidy {o : Opts} (h : o ≠ some []) : noEmpty o = o := by
  rcases o with _ | _ | ⟨kv, r⟩
  · rfl
  · exact absurd rfl h
  · rfl

mutual
theorem gqlItem_tidy : (i : QItem) → TidyItem i → gqlItem i = i
  | .field n o a, h => by
    simp only [TidyItem] at h
    simp only [gqlItem, noEmpty_tidy h]
  | .link n q o a, h => by
    simp only [TidyItem] at h
    simp only [gqlItem, noEmpty_tidy h.1, gqlQuery_tidy q h.2]
theorem gqlQuery_tidy : (q : QNode) → TidyQuery q → gqlQuery q = q
  | .mk fs ord, h => by
    simp only [TidyQuery] at h
    obtain ⟨rfl, h⟩ := h
    simp only [gqlQuery, gqlItems_tidy fs h]
theorem gqlItems_tidy : (fs : List QItem) → TidyItems fs → gqlItems fs = fs
  | [], _ => rfl
  | i :: r, h => by
    simp only [TidyItems] at h
    simp only [gqlItems, gqlItem_tidy i h.1, gqlItems_tidy r h.2]
end

/-- C31, for queries without `ordered` nodes and without `{}` for options.  Missing from the full statement, because it is
false there: `c31_ordered`, `c31_empty`. -/
theorem c31_partial (H : PyHash) {q : QNode} (h : JsonQuery q) (ht : TidyQuery q) :
    ∃ doc, gqlExport q = .ok doc ∧ ∀ given, readGraphql H doc given none = .ok (merge H [q]) := by
  have := c31_view H h
  rwa [gqlQuery_tidy q ht] at this

/-! ### The assumptions can be met, and counterexamples -/

def exExport : QNode :=
  .mk [.field "a" none (some "b"), .field "b" (some [("x", .dict [(.str "k", .list [.int 1, .none])]), ("y", .float "1.5")]) none,
    .link "c" (.mk [.link "e" (.mk [.field "g" none none] false) none (some "h")] false) none none,
    .link "c" (.mk [.field "a" none none] false) (some [("z", .bool true)]) (some "d")] false

example : ∃ doc, gqlExport exExport = .ok doc ∧ ∀ given, readGraphql exHash doc given none = .ok (merge exHash [exExport]) := by
  refine c31_partial _ ?_ ?_
  · simp only [exExport, JsonQuery, JsonItems, JsonItem, JsonOpts, and_true, true_and]
    refine ⟨by simp, ?_, by simp, ?_⟩
    · intro kvs h
      cases h
      refine ⟨by decide, fun kv hkv => ?_⟩
      simp only [List.mem_cons, List.not_mem_nil, or_false] at hkv
      rcases hkv with rfl | rfl
      · simp [Json, JsonKvs, JsonList]
      · simp [Json]
    · refine ⟨?_, by simp⟩
      intro kvs h
      cases h
      refine ⟨by decide, fun kv hkv => ?_⟩
      simp only [List.mem_cons, List.not_mem_nil, or_false] at hkv
      subst hkv
      simp [Json]
  · simp [exExport, TidyQuery, TidyItems, TidyItem]

/-- `{}` becomes `None` -/
theorem c31_empty (H : PyHash) : ∃ doc, gqlExport (.mk [.field "a" (some []) none] false) = .ok doc ∧
    readGraphql H doc [] none = .ok (.mk [.field "a" none none] false) := ⟨_, rfl, rfl⟩

/-- a mutation is exported as a query -/
theorem c31_ordered (H : PyHash) : ∃ doc, gqlExport (.mk [.field "a" none none] true) = .ok doc ∧
    readGraphql H doc [] none = .ok (.mk [.field "a" none none] false) := ⟨_, rfl, rfl⟩

/-- values of other types cannot be exported -/
theorem c31_unsupported (n : String) (a : Option String) (ord : Bool) :
    gqlExport (.mk [.field n (some [("x", .tup [])]) a] ord) = .error .typeError := rfl

end Hiku
