import Verif.Props.Telemetry
import Verif.Props.Semantics

/-! The hypotheses of the theorems about transformers hold for the example program. -/

namespace Hiku.Telemetry
open Hiku.Transform Hiku.Sim

theorem exBuilt : Built exHigh := by
  refine ⟨rfl, ?_⟩
  intro n hn he
  simp [exHigh, exAlbum, exHighTrack] at hn
  rcases hn with rfl | rfl | rfl <;> first | rfl | cases he

theorem exBelow : Below exEnv.sys 6 := by
  constructor
  · intro g hg n hn gf hf f he
    simp [exEnv] at hg
    rcases hg with rfl | rfl
    · simp [exLow, exLowTrack] at hn
      subst hn
      simp at hf
      rcases hf with rfl | rfl <;> cases he <;> decide
    · simp [exHigh, exAlbum, exHighTrack] at hn
      rcases hn with rfl | rfl | rfl <;> simp at hf
      · subst hf; cases he; decide
      · rcases hf with rfl | rfl <;> cases he; decide
  · intro g hg n hn l hl
    simp [exEnv] at hg
    rcases hg with rfl | rfl
    · simp [exLow, exLowTrack] at hn
      subst hn
      simp at hl
    · simp [exHigh, exAlbum, exHighTrack] at hn
      rcases hn with rfl | rfl | rfl <;> simp at hl <;> subst hl <;> decide

theorem exOne : OneNodePerFunction exHigh := by
  have key : ∀ nm f, LoadsFields exHigh nm f →
      (nm = some "Album" ∧ f = { id := 4, passCtx := true }) ∨ (nm = some "Track" ∧ f = { id := 5 }) := by
    rintro nm f ⟨n, hn, rfl, gf, hf, he⟩
    simp [exHigh, exAlbum, exHighTrack] at hn
    rcases hn with rfl | rfl | rfl <;> simp at hf
    · subst hf; cases he; exact .inl ⟨rfl, rfl⟩
    · rcases hf with rfl | rfl <;> cases he; exact .inr ⟨rfl, rfl⟩
  intro nm nm' f h h'
  rcases key _ _ h with ⟨rfl, rfl⟩ | ⟨rfl, rfl⟩ <;> rcases key _ _ h' with ⟨rfl, e⟩ | ⟨rfl, e⟩ <;> first | rfl | cases e

/-- the example with metrics gives the same result, computed through a sub-graph -/
example : ∃ g' s, metricsVisit 6 1 exHigh = .ok (g', s) ∧
    ∃ idx q, execute (metricsEnv exEnv 6 1 g' s) (fun _ l => l.take 1) 20 20 1 exQuery = .ok (idx, q) ∧
      dget idx ("Track", .int 20, "label") = some (.tup [.tup [.str "title", .int 20]]) := by
  obtain ⟨g', s, hv, _⟩ := c47_graph (base := 6) (bs := 1) exBuilt
  refine ⟨g', s, hv, ?_⟩
  rw [c47_execute exGood exBelow rfl hv _ 20 20 (q := exQuery) (q' := exQuery) rfl exQuery_ok]
  exact ⟨_, _, rfl, rfl⟩

end Hiku.Telemetry
