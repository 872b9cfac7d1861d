import Verif.Spec.DeviceIo
import Verif.Proofs.DirectStable
import Verif.Proofs.WriteRead
/-! # Direct store: the shape of device accesses -/
set_option autoImplicit false
namespace Blobd
namespace Direct
open List Spec

variable {c : SCfg}

theorem page_proper {a : Nat × Nat} (h : PageIn c.heap.base c.heap.heap a ∧ c.heap.pages.spage ≤ a.2 ∧ a.2 ≤ c.heap.pages.lpage) :
    Proper c.heap.pages.spage c.heap.base (c.heap.base + c.heap.heap) a.1 (2 ^ a.2) :=
  ⟨Nat.two_pow_pos _, Nat.dvd_trans (Nat.pow_dvd_pow 2 h.2.1) h.1.1, Nat.pow_dvd_pow 2 h.2.1, h.1.2.1, h.1.2.2⟩

end Direct

namespace RW
theorem fit_mem {ts pp : List (Nat × Nat)} (hf : Fit ts pp) : ∀ t ∈ ts, ∃ e, (t.2, e) ∈ pp ∧ t.1 ≤ 2 ^ e := by
  induction hf with
  | nil => simp
  | last h0 h =>
    intro t ht
    simp only [List.mem_singleton] at ht
    subst ht
    exact ⟨_, List.mem_singleton.2 rfl, h⟩
  | cons _ ih =>
    intro t ht
    rcases List.mem_cons.1 ht with rfl | ht
    · exact ⟨_, List.mem_cons_self, Nat.le_refl _⟩
    · obtain ⟨e, h1, h2⟩ := ih t ht
      exact ⟨e, List.mem_cons_of_mem _ h1, h2⟩
end RW
end Blobd
