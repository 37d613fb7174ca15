import Verif.Lemmas.Finalize
/-
Models that a client has built.
-/
namespace OpenGM
open Spec
variable {V : Type}

/-- The model object `gm` was built by a history of valid calls (Spec/Build.lean, Model/Client.lean) that builds the
problem `p`. -/
def BuiltModel (gm : GM V) (p : Problem V) : Prop :=
  ∃ (nTypes : Nat) (eqv : Fn V → Fn V → Bool) (ops : List (BuildOp V)) (c : Client V), EqvSound eqv ∧
    ValidHistory nTypes Built.empty ops ∧ (Client.init nTypes).run eqv ops = .ok () c ∧ c.gm = gm ∧
    (builtAfter ops).problem = p

theorem BuiltModel.represents {gm : GM V} {p : Problem V} (h : BuiltModel gm p) : Represents gm p := by
  obtain ⟨n, eqv, ops, c, he, hv, h1, rfl, rfl⟩ := h
  obtain ⟨c', h1', h2⟩ := client_run he ops (client_init n) hv
  rw [h1] at h1'
  cases h1'
  exact h2.rep

/-- Every problem built by a valid history has such a model. -/
theorem builtModel_exists {nTypes : Nat} {ops : List (BuildOp V)} (hv : ValidHistory nTypes Built.empty ops) :
    ∃ gm, BuiltModel gm (builtAfter ops).problem := by
  have he : EqvSound (V := V) (fun _ _ => false) := by intro f g h; simp at h
  obtain ⟨c, h1, _⟩ := client_run he ops (client_init nTypes) hv
  exact ⟨c.gm, nTypes, _, ops, c, he, hv, h1, rfl, rfl⟩

end OpenGM
