import Verif.Spec.DirectStore
import Verif.Proofs.MsgPack
import Verif.Proofs.BuddyInv
import Verif.Props.MetaPage
import Verif.Props.Layout
/-! Metadata round trip, and what allocating, marking and releasing the pages of an object do. -/
namespace Blobd
namespace Direct
open List Spec Buddy

/-- what can be represented -/
structure Meta.Fits (m : Meta) : Prop where
  size : m.size < 2 ^ 64
  created : m.created < 2 ^ 64
  key : m.key.length < 2 ^ 32
  lpages : m.lpages.length < 2 ^ 32
  tails : m.tails.length < 2 ^ 32
  offs : ∀ o ∈ m.lpages ++ m.tails, o < 2 ^ 64

theorem getNats_flatMap {l : List Nat} (h : ∀ o ∈ l, o < 2 ^ 64) (r : List Byte) :
    getNats l.length (l.flatMap MP.uint ++ r) = some (l, r) := by
  induction l with
  | nil => simp [getNats]
  | cons x l ih =>
    simp only [length_cons, getNats, flatMap_cons, append_assoc]
    rw [MP.getUint_uint (h x (by simp))]
    simp only
    rw [ih (fun o ho => h o (by simp [ho]))]

theorem getNatList_mpUints {l : List Nat} (hl : l.length < 2 ^ 32) (h : ∀ o ∈ l, o < 2 ^ 64) (r : List Byte) :
    getNatList (mpUints l ++ r) = some (l, r) := by
  simp only [getNatList, mpUints, append_assoc]
  rw [MP.getArr_arr hl]
  exact getNats_flatMap h r

/-- decoding what was encoded, whatever follows it on the page -/
theorem dec_enc {m : Meta} (h : m.Fits) (junk : List Byte) : Meta.dec (m.enc ++ junk) = some m := by
  obtain ⟨h1, h2, h3, h4, h5, h6⟩ := h
  simp only [Meta.dec, Meta.enc, append_assoc]
  rw [MP.getArr_arr (by decide)]
  simp only [Option.bind_eq_bind, Option.bind_some, if_pos]
  rw [MP.getUint_uint h1]
  simp only [Option.bind_some]
  rw [MP.getUint_uint h2]
  simp only [Option.bind_some]
  rw [MP.getBytes_bytes h3]
  simp only [Option.bind_some]
  rw [getNatList_mpUints h4 (fun o ho => h6 o (by simp [ho]))]
  simp only [Option.bind_some]
  rw [getNatList_mpUints h5 (fun o ho => h6 o (by simp [ho]))]
  rfl

theorem uint_pos (n : Nat) : 0 < (MP.uint n).length := by
  unfold MP.uint
  split <;> [skip; split <;> [skip; split <;> [skip; split]]] <;> simp

theorem flatMap_len {β : Type} {l : List β} {f : β → List Byte} (h : ∀ x, 0 < (f x).length) : l.length ≤ (l.flatMap f).length := by
  induction l with
  | nil => simp
  | cons x l ih =>
    have := h x
    simp only [length_cons, flatMap_cons, length_append]; omega

theorem arr_pos (n : Nat) : 0 < (MP.arr n).length := by
  unfold MP.arr
  split <;> [skip; split] <;> simp

theorem enc_len (m : Meta) : 0 < m.enc.length ∧ m.key.length ≤ m.enc.length ∧ m.lpages.length ≤ m.enc.length ∧
    m.tails.length ≤ m.enc.length := by
  have h1 := arr_pos 5
  have h2 : m.key.length ≤ (m.key.flatMap (fun b => MP.uint b.toNat)).length := flatMap_len (fun b => uint_pos _)
  have h3 : m.lpages.length ≤ (m.lpages.flatMap MP.uint).length := flatMap_len uint_pos
  have h4 : m.tails.length ≤ (m.tails.flatMap MP.uint).length := flatMap_len uint_pos
  simp only [Meta.enc, MP.bytes, mpUints, length_append]
  omega

/-- when the recorded page size is the allocated one, it is the number of bytes written -/
theorem recorded_eq {pages : Pages} {m : Nat} (hm : 0 < m)
    (h : MetaPage.directRecorded pages m = MetaPage.allocated pages m) :
    MetaPage.directPageSize pages m = 2 ^ MetaPage.directRecorded pages m := by
  obtain ⟨h1, h2, h3, h4⟩ := Props.C30_direct_condition pages m hm
  obtain ⟨k, hk⟩ := h1.1 h
  have hge : 2 ^ pages.spage ≤ ceilPow2 m pages.spage := by
    have h1 := le_ceilPow2 m pages.spage
    exact Nat.le_of_dvd (by omega) (ceilPow2_dvd m pages.spage)
  have hps : MetaPage.directPageSize pages m = 2 ^ k := by
    simp only [MetaPage.directPageSize, Nat.shiftLeft_eq, Nat.one_mul]
    omega
  simp only [MetaPage.directRecorded, hps, Nat.log2_two_pow]

theorem request_pow2 {pages : Pages} {p : Nat} (h : pages.spage ≤ p) : requestPow2 pages (2 ^ p) = p := by
  unfold requestPow2
  have h1 := nextPow2Exp_le (n := 2 ^ p) (e := p) (Nat.le_refl _)
  have h2 := le_nextPow2 (2 ^ p)
  have h3 := (Nat.pow_le_pow_iff_right (a := 2) (by decide)).1 h2
  omega

/-- allocating pages one after another -/
theorem allocPages_inv {c : HeapCfg} {b b' : Buddy} {live : List (Nat × Nat)} {sizes : List Nat} {r : Option (List Nat)}
    (h : Inv c b live) (hsz : ∀ s ∈ sizes, requestPow2 c.pages s ≤ c.pages.lpage) (he : allocPages b sizes = (r, b')) :
    match r with
    | some offs => offs.length = sizes.length ∧ Inv c b' (offs.zip (sizes.map (requestPow2 c.pages)) ++ live)
    | none => ∃ leaked, Inv c b' (leaked ++ live) := by
  induction sizes generalizing b live b' r with
  | nil =>
    simp only [allocPages, Prod.mk.injEq] at he
    obtain ⟨rfl, rfl⟩ := he
    exact ⟨rfl, h⟩
  | cons s ss ih =>
    have hs := hsz s (by simp)
    simp only [allocPages] at he
    rcases h.alloc s hs with ⟨n, b1, e, _, h1, _⟩ | ⟨b1, e, h1, _⟩
    · rw [e] at he
      simp only at he
      split at he
      · rename_i os b2 e2
        cases he
        obtain ⟨hl, hi⟩ := ih h1 (fun s hs => hsz s (by simp [hs])) e2
        refine ⟨by simp [hl], hi.perm ?_⟩
        simp only [map_cons, zip_cons_cons, cons_append]
        exact perm_middle
      · rename_i b2 e2
        cases he
        obtain ⟨lk, hi⟩ := ih h1 (fun s hs => hsz s (by simp [hs])) e2
        exact ⟨lk ++ [(c.base + n * 2 ^ requestPow2 c.pages s, requestPow2 c.pages s)], by simpa using hi⟩
    · rw [e] at he
      simp only [Prod.mk.injEq] at he
      obtain ⟨rfl, rfl⟩ := he
      exact ⟨[], h1⟩

/-- releasing held pages -/
theorem releaseAll_inv {c : HeapCfg} {pgs live : List (Nat × Nat)} : ∀ {b : Buddy}, Inv c b (pgs ++ live) →
    ∃ b', b.releaseAll pgs = some b' ∧ Inv c b' live := by
  induction pgs with
  | nil => intro b h; exact ⟨b, rfl, h⟩
  | cons p pgs ih =>
    intro b h
    obtain ⟨off, q⟩ := p
    obtain ⟨b1, e1, h1, _⟩ := h.rel
    obtain ⟨b2, e2, h2⟩ := ih h1
    exact ⟨b2, by simp only [Buddy.releaseAll, e1, e2], h2⟩

/-- marking pages at start-up -/
theorem markAll_inv {c : HeapCfg} {pgs : List (Nat × Nat)} : ∀ {b : Buddy} {live : List (Nat × Nat)}, Inv c b live →
    (∀ a ∈ pgs, PageIn c.base c.heap a ∧ c.pages.spage ≤ a.2 ∧ a.2 ≤ c.pages.lpage) →
    (pgs ++ live).Pairwise PageDisj →
    ∃ b', markAll b pgs = some b' ∧ Inv c b' (pgs ++ live) := by
  induction pgs with
  | nil => intro b live h _ _; exact ⟨b, rfl, h⟩
  | cons p pgs ih =>
    intro b live h hp hd
    obtain ⟨off, q⟩ := p
    rw [cons_append, pairwise_cons] at hd
    obtain ⟨g1, g2, g3⟩ := hp (off, q) (by simp)
    obtain ⟨b1, e1, h1, _⟩ := h.mark off q g1 g2 g3 (fun a ha => hd.1 a (by simp [ha]))
    have hd' : (pgs ++ (off, q) :: live).Pairwise PageDisj := by
      rw [(perm_middle (l₁ := pgs) (l₂ := live) (a := (off, q))).pairwise_iff (fun {a b} (h : PageDisj a b) => h.symm)]
      exact pairwise_cons.2 hd
    obtain ⟨b2, e2, h2⟩ := ih h1 (fun a ha => hp a (by simp [ha])) hd'
    exact ⟨b2, by simp only [markAll, e1, e2], h2.perm perm_middle⟩

theorem map_pair_zip (l : List Nat) (p : Nat) : l.map (fun o => (o, p)) = l.zip (replicate l.length p) := by
  induction l with
  | nil => rfl
  | cons x l ih => simp [replicate_succ, ih]

/-- the data pages of an object whose offsets come from `allocPages` -/
theorem dataPages_alloc {pages : Pages} {size created : Nat} {key : List Byte} {offs : List Nat} {lay : ObjectLayout}
    (hl : calcObjectLayoutDirect pages size = some lay) (hlen : offs.length = (dataSizes pages lay).length) :
    (Meta.mk size created key (offs.take lay.lpageCount) (offs.drop lay.lpageCount)).dataPages pages =
      offs.zip (replicate lay.lpageCount pages.lpage ++ lay.tailPageSizes.toList) := by
  simp only [Meta.dataPages, hl]
  simp only [dataSizes, length_append, length_replicate, length_map] at hlen
  have h1 : (offs.take lay.lpageCount).length = lay.lpageCount := by rw [length_take]; omega
  conv => rhs; rw [← take_append_drop lay.lpageCount offs]
  rw [zip_append (by rw [h1, length_replicate])]
  congr 1
  have := map_pair_zip (offs.take lay.lpageCount) pages.lpage
  rw [h1] at this
  exact this

theorem sizes_exps {pages : Pages} {lay : ObjectLayout} (hsl : pages.spage ≤ pages.lpage)
    (ht : ∀ e ∈ lay.tailPageSizes.toList, pages.spage ≤ e ∧ e ≤ pages.lpage) :
    (dataSizes pages lay).map (requestPow2 pages) = replicate lay.lpageCount pages.lpage ++ lay.tailPageSizes.toList ∧
    ∀ s ∈ dataSizes pages lay, requestPow2 pages s ≤ pages.lpage := by
  constructor
  · simp only [dataSizes, map_append, map_replicate, map_map, request_pow2 hsl]
    congr 1
    conv => rhs; rw [← map_id lay.tailPageSizes.toList]
    apply map_congr_left
    intro e he
    simp [request_pow2 (ht e he).1]
  · intro s hs
    simp only [dataSizes, mem_append, mem_replicate, mem_map] at hs
    rcases hs with ⟨_, rfl⟩ | ⟨e, he, rfl⟩
    · rw [request_pow2 hsl]
    · rw [request_pow2 (ht e he).1]; exact (ht e he).2

end Direct
end Blobd
