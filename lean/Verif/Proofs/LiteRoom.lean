import Verif.Spec.LiteRoom
import Verif.Proofs.Room
import Verif.Proofs.LiteEnds2
import Verif.Proofs.LiteRun
set_option autoImplicit false
/-! Lite store: creates with enough room. -/
namespace Blobd
namespace Lite
open Spec

variable {c : LCfg}

theorem create_next {s s' : LSt} (h : Step c s s') (hb : ∀ i t, s.thr i = some t → i < s.nextCall) {i id : Nat} {pc : PC}
    (ha : at? s i = some pc) (hp : pc.makes = some id) :
    (∃ pc', at? s' i = some pc' ∧ (pc'.makes = some id ∨ pc' = .dead)) ∨ Made s' i id := by
  obtain ⟨st, ht⟩ := at_some.1 ha
  have same : s'.thr i = s.thr i → at? s' i = some pc := fun e => by unfold at? at ha ⊢; rw [e]; exact ha
  cases step_did h with
  | silent h1 h2 h3 => exact .inl ⟨pc, same (by rw [h1]), .inl hp⟩
  | start t h1 h2 h3 =>
    refine .inl ⟨pc, same ?_, .inl hp⟩
    have := hb i _ ht
    rw [h1, upd, if_neg (by omega)]
  | move j t pc' evs h1 h2 h3 h4 =>
    by_cases hj : j = i
    · subst hj
      rw [ht] at h1
      cases h1
      refine .inl ⟨pc', at_some.2 ⟨_, by rw [h2]; simp [upd]; rfl⟩, ?_⟩
      cases h4 with
      | written => exact .inl hp
      | link _ _ => exact .inl hp
      | signalled => 
        rename_i r
        cases r <;> first | exact .inl hp | cases hp
      | evict =>
        rename_i r
        cases r <;> first | exact .inl hp | cases hp
      | dies _ _ => exact .inr rfl
      | _ => cases hp
    · exact .inl ⟨pc, same (by rw [h2, upd, if_neg (Ne.symm hj)]), .inl hp⟩
  | answer j t evs a h1 h2 h3 h4 h5 h6 h7 h8 =>
    by_cases hj : j = i
    · subst hj
      rw [ht] at h1
      cases h1
      exact .inr ⟨a, by rw [h6]; simp, h7, h8 id hp⟩
    · exact .inl ⟨pc, same (by rw [h2, upd, if_neg (Ne.symm hj)]), .inl hp⟩

end Lite
end Blobd
