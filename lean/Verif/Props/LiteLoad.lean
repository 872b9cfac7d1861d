import Verif.Proofs.LiteLoad
set_option autoImplicit false
/-!
# C64: what startup of a lite store takes for used space

Specification: Spec/LiteStart (`Visited`), Spec/LiteStore (`dataAt`), Spec/Alloc (`Room`, bytes).
-/
namespace Blobd
namespace Props
open Lite

/-- **C64, space.** Whatever is on the device: if opening it gets to the end, then a page of any size can be allocated exactly if the heap has
an aligned place for it that touches no page of the contents of any inode startup came across, and the free bytes are the heap's less these
pages. (Missing: startup looks for inodes in the wrong places, and does not count the inodes' own pages:
C64_violated_never_opens, C64_violated_pages_reused.) -/
theorem C64_load_exact_partial {c : LCfg} (hc : c.Ok) {m : Mem} {a : Buddy} (h : Opens c m a)
    (hb : ∀ x, Visited c m x → ∀ p ∈ dataAt c m x, c.heap.base ≤ p.1) :
    ∃ offs : List Nat, (∀ x, x ∈ offs ↔ Visited c m x) ∧ (offs.flatMap (dataAt c m)).Pairwise Spec.PageDisj ∧
      (∀ p, c.pages.spage ≤ p → p ≤ c.pages.lpage →
        ((∃ off a', a.allocate (2 ^ p) = (.ok off, a')) ↔ Spec.Room c.heap.base c.heap.heap (offs.flatMap (dataAt c m)) p)) ∧
      Spec.freeBytes a + Spec.liveBytes (offs.flatMap (dataAt c m)) = c.heap.heap := by
  obtain ⟨offs, h1, h2, h3⟩ := opens_inv hc h hb
  obtain ⟨a0, _, h0, _⟩ := h
  refine ⟨offs, fun x => ⟨h1 x, h2 x⟩, h3.disj, ?_, inv_bytes hc.sl h3 h0⟩
  intro p g1 g2
  have e : Buddy.requestPow2 c.heap.pages (2 ^ p) = p := pow2_request g1
  have := inv_room h3 (2 ^ p) (by rw [e]; exact g2)
  rw [e] at this
  exact this

/-- … and what is allocated afterwards touches none of these contents. -/
theorem C64_load_keeps_contents_partial {c : LCfg} (hc : c.Ok) {m : Mem} {a : Buddy} (h : Opens c m a)
    (hb : ∀ x, Visited c m x → ∀ p ∈ dataAt c m x, c.heap.base ≤ p.1) {x p off : Nat} {a' : Buddy} (hx : Visited c m x)
    (h1 : c.pages.spage ≤ p) (h2 : p ≤ c.pages.lpage) (ha : a.allocate (2 ^ p) = (.ok off, a')) :
    ∀ q ∈ dataAt c m x, Spec.PageDisj (off, p) q := by
  intro q hq
  obtain ⟨offs, _, g2, g3⟩ := opens_inv hc h hb
  have e : Buddy.requestPow2 c.heap.pages (2 ^ p) = p := pow2_request h1
  rcases g3.alloc (2 ^ p) (by rw [e]; exact h2) with ⟨n, b', e1, _, e3, _⟩ | ⟨b', e1, _⟩
  · rw [ha] at e1
    simp only [Prod.mk.injEq, Outcome.ok.injEq] at e1
    obtain ⟨e1, rfl⟩ := e1
    rw [← e1, e] at e3
    exact (List.pairwise_cons.1 e3.disj).1 q (List.mem_flatMap.2 ⟨x, g2 x hx, hq⟩)
  · rw [ha] at e1
    cases e1

/-- a device on which startup comes across one object, with a large page and two small ones -/
def loadDev : Mem := Mem.write (Mem.write (fun _ => 0) 0 [2, 1, 1, 0, 0]) 33620224
  (NewObject.encode ⟨8, 5, 7, 70000, [1], [33685504], [33624064, 33620480], []⟩)

/-- Hypotheses met. -/
example : ∃ a, (rcfg 0).Ok ∧ Opens (rcfg 0) loadDev a ∧ (∀ x, Visited (rcfg 0) loadDev x ↔ x = 33620224) ∧
    (∀ x, Visited (rcfg 0) loadDev x → ∀ p ∈ dataAt (rcfg 0) loadDev x, (rcfg 0).heap.base ≤ p.1) ∧
    dataAt (rcfg 0) loadDev 33620224 = [(33685504, 16), (33624064, 12), (33620480, 9)] := by
  have h1 : loadHeads (rcfg 0) loadDev = [33620224] := by decide +kernel
  have h2 : rdNext loadDev 33620224 = 0 := by decide +kernel
  have h3 : ((Buddy.new (rcfg 0).heap.pageNumBits (rcfg 0).heap.base (rcfg 0).heap.heap (rcfg 0).heap.pages (rcfg 0).heap.dir).bind (fun a0 =>
      (loadInode (rcfg 0) loadDev 33620224 a0))).isSome = true := by decide +kernel
  have h4 : dataAt (rcfg 0) loadDev 33620224 = [(33685504, 16), (33624064, 12), (33620480, 9)] := by decide +kernel
  have h5 : ∀ x, Visited (rcfg 0) loadDev x → x = 33620224 := by
    intro x hx
    induction hx with
    | first hb hne =>
      have : _ ∈ loadHeads (rcfg 0) loadDev := List.mem_filter.2 ⟨List.mem_map.2 ⟨_, List.mem_range.2 hb, rfl⟩, by simpa using hne⟩
      rw [h1] at this
      simpa using this
    | next _ hne ih => rw [ih] at hne; exact absurd h2 hne
  have h6 : Visited (rcfg 0) loadDev 33620224 := by
    have : (33620224 : Nat) ∈ loadHeads (rcfg 0) loadDev := by rw [h1]; simp
    obtain ⟨g1, g2⟩ := List.mem_filter.1 this
    obtain ⟨b, g3, g4⟩ := List.mem_map.1 g1
    have := Visited.first (c := rcfg 0) (m := loadDev) (List.mem_range.1 g3) (by rw [g4]; decide)
    rwa [g4] at this
  obtain ⟨⟨a, n⟩, h7⟩ := Option.isSome_iff_exists.1 h3
  obtain ⟨a0, h8, h9⟩ := Option.bind_eq_some_iff.1 h7
  have hn : n = 0 := by rw [(loadInode_some (rcfg_ok 0 (by decide)) h9).2, h2]
  subst hn
  refine ⟨a, rcfg_ok 0 (by decide), ⟨a0, [0], h8, .step .refl (by rw [h1]; exact .inode (pre := []) (post := []) (by decide) h9), by simp⟩,
    fun x => ⟨h5 x, fun e => e ▸ h6⟩, ?_, h4⟩
  intro x hx p hp
  rw [h5 x hx, h4] at hp
  simp only [List.mem_cons, List.not_mem_nil, or_false] at hp
  rcases hp with rfl | rfl | rfl <;> decide

end Props
end Blobd
