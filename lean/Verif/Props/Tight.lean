import Verif.Props.Simple
import Verif.Props.Denormalize
import Verif.Props.Example

/-! # C20, C29: dicts in values

What happens to dicts which come where the declared type or the writer of a query did not expect them. -/

namespace Hiku.Tight
open Hiku

/-! ### the keys of exported dicts -/

mutual
/-- every key of every dict in the value is a keyword -/
def KwKeys : Val → Prop
  | .atom _ => True
  | .seq _ xs => KwKeysAll xs
  | .map _ kvs => KwKeysKvs kvs
  | .tagged _ v => KwKeys v
  | .ref _ i => KwKeys i
def KwKeysAll : List Val → Prop
  | [] => True
  | x :: r => KwKeys x ∧ KwKeysAll r
def KwKeysKvs : List (Val × Val) → Prop
  | [] => True
  | (k, v) :: r => (∃ s, k = .kw s) ∧ KwKeys v ∧ KwKeysKvs r
end

theorem kwKeysAll_iff {l : List Val} : KwKeysAll l ↔ ∀ x ∈ l, KwKeys x := by
  induction l with
  | nil => simp [KwKeysAll]
  | cons x r ih => simp [KwKeysAll, ih]

theorem kwKeysKvs_iff {l : List (Val × Val)} : KwKeysKvs l ↔ ∀ kv ∈ l, (∃ s, kv.1 = .kw s) ∧ KwKeys kv.2 := by
  induction l with
  | nil => simp [KwKeysKvs]
  | cons x r ih =>
    obtain ⟨k, v⟩ := x
    simp [KwKeysKvs, ih, and_assoc]

theorem keywordOf_kw {pyStr : Val → String} (v : Val) : ∃ s, keywordOf pyStr v = .kw s := by
  unfold keywordOf
  split <;> exact ⟨_, rfl⟩

mutual
/-- C29: whatever the keys of a dict in an option are, the exported text has keywords there. -/
theorem c29_keywords {pyStr : Val → String} : ∀ (v : Val) {w : Val}, simpleEncode pyStr v = .ok w → KwKeys w
  | .none, _, h | .bool _, _, h | .int _, _, h | .float _, _, h | .str _, _, h | .kw _, _, h | .sym _, _, h => by
    simp [simpleEncode] at h
    subst h
    simp [KwKeys]
  | .nothing, _, h | .seq .tup _, _, h | .seq .elist _, _, h | .seq .etup _, _, h | .tagged .., _, h | .ref .., _, h => by
    simp [simpleEncode] at h
  | .seq .list xs, w, h => by
    simp only [simpleEncode, bind_ok_iff] at h
    obtain ⟨r, hr, h⟩ := h
    simp at h
    subst h
    simp only [KwKeys]
    exact kwKeys_all xs hr
  | .map _ kvs, w, h => by
    simp only [simpleEncode, bind_ok_iff] at h
    obtain ⟨r, hr, h⟩ := h
    simp at h
    subst h
    simp only [KwKeys]
    exact kwKeysKvs_iff.2 fun kv hkv => kwKeysKvs_iff.1 (kwKeys_kvs kvs hr) kv (mem_of_mem_dmk hkv)
  | .seq .set xs, w, h => by
    simp only [simpleEncode, bind_ok_iff] at h
    obtain ⟨r, hr, h⟩ := h
    simp at h
    subst h
    simp only [KwKeys]
    exact kwKeysAll_iff.2 fun x hx => kwKeysAll_iff.1 (kwKeys_all xs hr) x (mem_mkSet hx)
  | .seq .eset xs, w, h => by
    simp only [simpleEncode, bind_ok_iff] at h
    obtain ⟨r, hr, h⟩ := h
    simp at h
    subst h
    simp only [KwKeys]
    exact kwKeysAll_iff.2 fun x hx => kwKeysAll_iff.1 (kwKeys_all xs hr) x (mem_mkSet hx)
theorem kwKeys_all {pyStr : Val → String} : ∀ (l : List Val) {r : List Val}, simpleEncodeList pyStr l = .ok r → KwKeysAll r
  | [], _, h => by
    simp [simpleEncodeList] at h
    subst h
    simp [KwKeysAll]
  | x :: l, _, h => by
    simp only [simpleEncodeList, bind_ok_iff] at h
    obtain ⟨a, ha, b, hb, h⟩ := h
    simp at h
    subst h
    exact ⟨c29_keywords x ha, kwKeys_all l hb⟩
theorem kwKeys_kvs {pyStr : Val → String} : ∀ (l : List (Val × Val)) {r : List (Val × Val)},
    simpleEncodeKvs pyStr l = .ok r → KwKeysKvs r
  | [], _, h => by
    simp [simpleEncodeKvs] at h
    subst h
    simp [KwKeysKvs]
  | (k, v) :: l, _, h => by
    simp only [simpleEncodeKvs, bind_ok_iff] at h
    obtain ⟨a, ha, b, hb, h⟩ := h
    simp at h
    subst h
    exact ⟨keywordOf_kw k, c29_keywords v ha, kwKeys_kvs l hb⟩
end

example : simpleEncode (fun _ => "1") (.dict [(.sym "a", .list [.dict [(.int 1, .none)]]), (.str "b", .none)]) =
    .ok (.edict [(.kw "a", .elist [.edict [(.kw "1", .none)]]), (.kw "b", .none)]) := by decide +kernel

/-! ### a dict in the place of a list -/

theorem text_field {H : PyHash} {idx : Index} {s : String} {f : QItem} :
    ∀ fs, ∃ e, denormTyField H idx fs (.raw (.str s)) f = .error e
  | [] => ⟨_, by rw [denormTyField]⟩
  | (n, t) :: r => by
    rw [denormTyField]
    split
    · exact ⟨.typeError, rfl⟩
    · exact text_field r

/-- C20: a dict with texts as keys where a list of records is declared is not denormalized to the list of its values:
it is an error as soon as something is asked of the records. -/
theorem c20_dict {H : PyHash} {idx : Index} {fs : List (String × Ty)} {k : DictKind} {s : String} {v : Val} {kvs : List (Val × Val)}
    {n : String} {f : QItem} {r : List QItem} {b : Bool} {o : Opts} {a : Option String} :
    ∃ e, denormTy H idx (.sequence (.record fs)) (.raw (.map k ((.str s, v) :: kvs))) (.link n (.mk (f :: r) b) o a) = .error e := by
  obtain ⟨e, he⟩ := text_field (H := H) (idx := idx) (s := s) (f := f) fs
  refine ⟨e, ?_⟩
  rw [denormTy]
  simp only [piter, ok_bind', List.map_cons, List.mapM_cons]
  rw [denormTy]
  simp only [QNode.fields, List.mapM_cons, he, error_bind']

example : denormTy exEnv.H [] (.sequence (.record [("x", .integer)])) (.raw (.dict [(.str "p", .dict [(.str "x", .int 1)])]))
    (.link "l" (.mk [.field "x" none none] false) none none) = .error .typeError := by rfl

end Hiku.Tight
