import Verif.Proofs.LiteCells
set_option autoImplicit false
/-! # Bucket lists under the changes the store makes -/
namespace Blobd
namespace Lite
open Spec

/-- a record as a version of its key -/
def ver (m : Mem) (r : Rec) : Ver := ⟨r.o.id, r.o.size, decide (rdState m r.off = stCommitted)⟩

/-- the abstract store the lists stand for -/
def absOf (c : LCfg) (v : V) : Abs := fun k => ((v.ch (c.bkt k)).filter (fun r => r.o.key = k)).map (ver v.L)

theorem bkt_lt {c : LCfg} (hc : c.Ok) (key : List Byte) : c.bkt key < 2 ^ c.bits := by
  have h1 := hc.bitsMin; have h2 := hc.bitsMax
  unfold LCfg.bkt bucketIdForKey
  rw [Nat.shiftRight_eq_div_pow, Nat.div_lt_iff_lt_mul (Nat.two_pow_pos _), ← Nat.pow_add,
    show c.bits + (64 - c.bits) = 64 by omega]
  exact hc.hash key

theorem rdState_val (m : Mem) (r : Rec) : rdState m r.off = (Cell.state r.o.id).val m r.off := rfl
theorem rdNext_val (m : Mem) (r : Rec) : rdNext m r.off = (Cell.next r.o.id).val m (r.off + 2) := rfl
theorem rdHead_val (m : Mem) (c : LCfg) (b : Nat) : rdHead m c.bkDev b = (Cell.head b).val m (c.bkDev + bucketOff b) := rfl

theorem cellAt_state {c : LCfg} {v : V} {r : Rec} (h : (Own.linked, r) ∈ v.recs) : CellAt c v (.state r.o.id) r.off := ⟨r, h, rfl, rfl⟩
theorem cellAt_next {c : LCfg} {v : V} {r : Rec} (h : (Own.linked, r) ∈ v.recs) : CellAt c v (.next r.o.id) (r.off + 2) := ⟨r, h, rfl, rfl⟩
theorem cellAt_head {c : LCfg} {v : V} {b : Nat} (h : b < 2 ^ c.bits) : CellAt c v (.head b) (c.bkDev + bucketOff b) := ⟨h, rfl⟩

section
variable {c : LCfg} (hc : c.Ok) {v : V} {ids : List Nat} (ba : Base c v.recs ids) (ge : Geo c v.recs)
include hc ba ge

/-- writing a cell leaves other cells as they are -/
theorem val_other {k k' : Cell} {a a' : Nat} (h : CellAt c v k a) (h' : CellAt c v k' a') (hne : k ≠ k') (m : Mem) {d : List Byte}
    (hd : d.length = k'.width) : k.val (m.write a' d) a = k.val m a := by
  apply val_congr
  intro z h1 h2
  apply Mem.write_out
  have := cell_disj hc ba ge h h' hne
  omega

/-- … and the fixed parts of records -/
theorem at_cell {k : Cell} {a : Nat} (h : CellAt c v k a) {x : Own × Rec} (hx : x ∈ v.recs) {m : Mem} {d : List Byte}
    (hd : d.length = k.width) (ha : At x.2.o m x.2.off) : At x.2.o (m.write a d) x.2.off := by
  refine ha.congr ?_
  intro y h1 h2
  have hr := (ba.fit x hx).1.room
  have ho := ge.off hx
  apply Mem.write_out
  have recrec : ∀ {r : Rec}, (Own.linked, r) ∈ v.recs → r.off = x.2.off ∨ r.off + 256 ≤ x.2.off ∨
      x.2.off + 2 ^ x.2.o.metaSizePow2 ≤ r.off := by
    intro r h1
    by_cases e : r.off = x.2.off
    · exact .inl e
    · have m := ge.metas h1 hx e
      have := ge.off h1
      simp only at *
      omega
  cases k with
  | head b =>
    obtain ⟨h3, h4⟩ := h
    have := hc.buckets; have := hc.journal
    simp only [Cell.width, bucketOff] at *
    omega
  | state id =>
    obtain ⟨r, h3, h4, h5⟩ := h
    have := recrec h3
    simp only [Cell.width] at *
    omega
  | next id =>
    obtain ⟨r, h3, h4, h5⟩ := h
    have := recrec h3
    simp only [Cell.width] at *
    omega

end

/-- the device changes only outside bucket heads and listed records -/
theorem lists_frame {c : LCfg} {v : V} {L' : Mem} (l : Lists c v)
    (hh : ∀ b, b < 2 ^ c.bits → rdHead L' c.bkDev b = rdHead v.L c.bkDev b)
    (hr : ∀ r, (Own.linked, r) ∈ v.recs → At r.o L' r.off ∧ rdState L' r.off = rdState v.L r.off ∧ rdNext L' r.off = rdNext v.L r.off) :
    Lists c { v with L := L' } ∧ absOf c { v with L := L' } = absOf c v := by
  have hm : ∀ b, ∀ r ∈ v.ch b, (Own.linked, r) ∈ v.recs := by
    intro b r h
    rw [l.lnk, l.chb b r h]; exact h
  refine ⟨⟨?_, l.lnk, l.chb, l.chn, ?_⟩, ?_⟩
  · intro r h
    obtain ⟨h1, h2, _⟩ := hr r h
    refine ⟨h1, ?_⟩
    simp only [h2]
    exact (l.att r h).2
  · intro b hb
    simp only [hh b hb]
    exact (l.chain b hb).congr (fun r h => (hr r (hm b r h)).2.2)
  · funext k
    simp only [absOf]
    apply List.map_congr_left
    intro r h
    have := hm _ r (List.mem_of_mem_filter h)
    simp [ver, (hr r this).2.1]

theorem seg_fits {c : LCfg} (hc : c.Ok) {recs : List (Own × Rec)} (ge : Geo c recs) {m : Mem} {h : Nat} {l : List Rec}
    (hs : Seg m h l 0) (hl : ∀ r ∈ l, ∃ o, (o, r) ∈ recs) : 256 ∣ h ∧ h < 2 ^ 48 := by
  rw [hs.head]
  cases l with
  | nil => simp [headOff]
  | cons r l =>
    obtain ⟨o, hr⟩ := hl r (by simp)
    have := ge.off hr
    have := hc.heapEnd
    simp only [headOff, List.head?_cons, Option.map_some, Option.getD_some] at *
    omega

section
variable {c : LCfg} (hc : c.Ok) {v : V} {ids : List Nat} (ba : Base c v.recs ids) (ge : Geo c v.recs)
include hc ba ge

/-- a new record is put at the front of its list -/
theorem lists_link (l : Lists c v) {i : Nat} {r : Rec} (hr : (Own.fresh i, r) ∈ v.recs) (hat : At r.o v.L r.off)
    (hst : rdState v.L r.off = stIncomplete) {L' : Mem}
    (hL : L' = (v.L.write (c.bkDev + bucketOff (c.bkt r.o.key)) (encHead r.off)).write (r.off + 2)
      (beBytes 6 (rdHead v.L c.bkDev (c.bkt r.o.key)))) :
    let v' : V := { v with L := L', recs := setOwn v.recs r.off .linked, ch := upd v.ch (c.bkt r.o.key) (r :: v.ch (c.bkt r.o.key)) }
    Lists c v' ∧ absOf c v' = (absOf c v).set r.o.key (⟨r.o.id, r.o.size, false⟩ :: absOf c v r.o.key) ∧
      (∀ r', (Own.linked, r') ∈ v.recs → rdState L' r'.off = rdState v.L r'.off ∧ rdNext L' r'.off = rdNext v.L r'.off) := by
  intro v'
  have hb := bkt_lt hc r.o.key
  have hba : Base c v'.recs ids := base_snd (setOwn_snd _ _ _) ba
  have hge : Geo c v'.recs := geo_snd (setOwn_snd _ _ _) ge
  have hmem : ∀ r', (Own.linked, r') ∈ v'.recs ↔ (Own.linked, r') ∈ v.recs ∨ r' = r := by
    intro r'
    show (Own.linked, r') ∈ setOwn v.recs r.off .linked ↔ _
    rw [mem_setOwn]
    constructor
    · rintro (h | ⟨h1, h2, o', h3⟩)
      · exact .inl h.2
      · exact .inr (congrArg Prod.snd (ba.uniq h3 hr h1))
    · rintro (h | rfl)
      · refine .inl ⟨?_, h⟩
        intro e
        have := ba.uniq h hr e
        cases this
      · exact .inr ⟨rfl, rfl, _, hr⟩
  have hne : ∀ r', (Own.linked, r') ∈ v.recs → r'.o.id ≠ r.o.id := by
    intro r' h e
    have := ba.uniqId h hr e
    cases this
  have hrl : (Own.linked, r) ∈ v'.recs := (hmem r).2 (.inr rfl)
  have kH : CellAt c v' (.head (c.bkt r.o.key)) (c.bkDev + bucketOff (c.bkt r.o.key)) := cellAt_head hb
  have kN : CellAt c v' (.next r.o.id) (r.off + 2) := cellAt_next hrl
  have hfit : 256 ∣ rdHead v.L c.bkDev (c.bkt r.o.key) ∧ rdHead v.L c.bkDev (c.bkt r.o.key) < 2 ^ 48 :=
    seg_fits hc ge (l.chain _ hb) (fun r' h => ⟨_, (l.lnk r').2 (l.chb _ r' h ▸ h)⟩)
  have hw : ∀ k a, CellAt c v' k a → k ≠ .head (c.bkt r.o.key) → k ≠ .next r.o.id → k.val L' a = k.val v.L a := by
    intro k a h h1 h2
    rw [hL, val_other hc hba hge h kN h2 _ (by simp [Cell.width]), val_other hc hba hge h kH h1 _ (by simp [Cell.width, encHead])]
  have hwst : ∀ r', (Own.linked, r') ∈ v'.recs → rdState L' r'.off = rdState v.L r'.off := by
    intro r' h
    rw [rdState_val, rdState_val]
    exact hw _ _ (cellAt_state h) (by simp) (by simp)
  have hwnx : ∀ r', (Own.linked, r') ∈ v.recs → rdNext L' r'.off = rdNext v.L r'.off := by
    intro r' h
    rw [rdNext_val, rdNext_val]
    exact hw _ _ (cellAt_next ((hmem r').2 (.inl h))) (by simp) (by simpa using hne r' h)
  have hro := ge.off hr
  have hhd : rdHead L' c.bkDev (c.bkt r.o.key) = r.off := by
    rw [rdHead_val, hL, val_other hc hba hge kH kN (by simp) _ (by simp [Cell.width])]
    exact val_write (k := .head (c.bkt r.o.key)) ⟨by simpa using hro.2.2.1, by have := hc.heapEnd; simp only at hro; omega⟩
  have hnx : rdNext L' r.off = rdHead v.L c.bkDev (c.bkt r.o.key) := by
    rw [rdNext_val, hL]
    exact val_write (k := .next r.o.id) hfit.2
  have hchm : ∀ b, ∀ r' ∈ v.ch b, (Own.linked, r') ∈ v.recs := by
    intro b r' h
    rw [l.lnk, l.chb b r' h]; exact h
  have hat' : ∀ r', (Own.linked, r') ∈ v'.recs → At r'.o v.L r'.off → At r'.o L' r'.off := by
    intro r' h h2
    rw [hL]
    exact at_cell hc hba hge kN h (by simp [Cell.width]) (at_cell hc hba hge kH h (by simp [Cell.width, encHead]) h2)
  refine ⟨⟨?_, ?_, ?_, ?_, ?_⟩, ?_, fun r' h => ⟨hwst r' ((hmem r').2 (.inl h)), hwnx r' h⟩⟩
  · intro r' h
    show At r'.o L' r'.off ∧ (rdState L' r'.off = _ ∨ rdState L' r'.off = _)
    rw [hwst r' h]
    rcases (hmem r').1 h with h' | rfl
    · exact ⟨hat' r' h (l.att r' h').1, (l.att r' h').2⟩
    · exact ⟨hat' r' h hat, .inl hst⟩
  · intro r'
    show _ ↔ r' ∈ upd v.ch (c.bkt r.o.key) (r :: v.ch (c.bkt r.o.key)) (c.bkt r'.o.key)
    rw [hmem, l.lnk]
    simp only [upd]
    split
    · rename_i e
      rw [e, List.mem_cons]
      exact ⟨fun h => h.symm, fun h => h.symm⟩
    · rename_i e
      constructor
      · rintro (h | rfl)
        · exact h
        · exact absurd rfl e
      · exact .inl
  · intro b r' h
    simp only [v', upd] at h
    split at h
    · rename_i e
      rcases List.mem_cons.1 h with rfl | h
      · exact e.symm
      · rw [e]; exact l.chb _ r' h
    · exact l.chb b r' h
  · intro b
    simp only [v', upd]
    split
    · simp only [List.map_cons, List.nodup_cons]
      refine ⟨?_, l.chn _⟩
      intro h
      obtain ⟨r', h1, h2⟩ := List.mem_map.1 h
      have := ba.uniq (hchm _ r' h1) hr h2
      cases this
    · exact l.chn b
  · intro b hb'
    simp only [v', upd]
    split
    · rename_i e
      subst e
      rw [hhd]
      refine ⟨rfl, ?_⟩
      rw [hnx]
      exact (l.chain _ hb).congr (fun r' h => hwnx r' (hchm _ r' h))
    · rename_i e
      have : rdHead L' c.bkDev b = rdHead v.L c.bkDev b := by
        rw [rdHead_val, rdHead_val]
        exact hw _ _ (cellAt_head hb') (by simpa using e) (by simp)
      rw [this]
      exact (l.chain _ hb').congr (fun r' h => hwnx r' (hchm _ r' h))
  · funext k
    have hvr : ∀ b, ∀ r' ∈ v.ch b, ver L' r' = ver v.L r' := by
      intro b r' h
      simp [ver, hwst r' ((hmem r').2 (.inl (hchm b r' h)))]
    have hvn : ver L' r = ⟨r.o.id, r.o.size, false⟩ := by
      simp only [ver, hwst r hrl, hst]
      congr 1
    simp only [absOf, v', upd, Abs.set]
    by_cases e : k = r.o.key
    · subst e
      simp only [if_pos, List.filter_cons, decide_true, List.map_cons, hvn]
      congr 1
      exact List.map_congr_left (fun r' h => hvr _ r' (List.mem_of_mem_filter h))
    · rw [if_neg e]
      split
      · rename_i e2
        rw [List.filter_cons, if_neg (by simpa using fun h => e h.symm), ← e2]
        exact List.map_congr_left (fun r' h => hvr _ r' (List.mem_of_mem_filter h))
      · exact List.map_congr_left (fun r' h => hvr _ r' (List.mem_of_mem_filter h))

/-- a record is taken out of its list -/
theorem lists_unlink (l : Lists c v) {i b : Nat} {pre post : List Rec} {e : Rec} (hch : v.ch b = pre ++ e :: post) {L' : Mem}
    (hL : (pre = [] ∧ L' = v.L.write (c.bkDev + bucketOff b) (encHead (rdNext v.L e.off))) ∨
      (∃ pre' p, pre = pre' ++ [p] ∧ L' = v.L.write (p.off + 2) (beBytes 6 (rdNext v.L e.off)))) :
    let v' : V := { v with L := L', recs := setOwn v.recs e.off (.dying i), ch := upd v.ch b (pre ++ post) }
    Lists c v' ∧ absOf c v' = (absOf c v).set e.o.key ((absOf c v e.o.key).filter (fun x => x.id ≠ e.o.id)) ∧
      (∀ r', (Own.linked, r') ∈ v.recs → rdState L' r'.off = rdState v.L r'.off) ∧
      (∀ r', (Own.linked, r') ∈ v.recs → pre.getLast? ≠ some r' → rdNext L' r'.off = rdNext v.L r'.off) ∧
      (∀ x ∈ v.recs, At x.2.o v.L x.2.off → At x.2.o L' x.2.off) := by
  intro v'
  have hchm : ∀ b, ∀ r' ∈ v.ch b, (Own.linked, r') ∈ v.recs := by
    intro b r' h
    rw [l.lnk, l.chb b r' h]; exact h
  have hel : (Own.linked, e) ∈ v.recs := hchm b e (by rw [hch]; simp)
  have hbk : c.bkt e.o.key = b := l.chb b e (by rw [hch]; simp)
  have hb : b < 2 ^ c.bits := hbk ▸ bkt_lt hc e.o.key
  have hmem : ∀ r', (Own.linked, r') ∈ v'.recs ↔ (Own.linked, r') ∈ v.recs ∧ r'.off ≠ e.off := by
    intro r'
    show (Own.linked, r') ∈ setOwn v.recs e.off (.dying i) ↔ _
    rw [mem_setOwn]
    constructor
    · rintro (h | ⟨h1, h2, o', h3⟩)
      · exact ⟨h.2, h.1⟩
      · cases h2
    · rintro ⟨h1, h2⟩
      exact .inl ⟨h2, h1⟩
  have hnd : ((pre ++ e :: post).map Rec.off).Nodup := hch ▸ l.chn b
  have hnd' : ∀ r' ∈ pre ++ post, r'.off ≠ e.off := by
    intro r' hr' he
    rw [List.map_append, List.map_cons, List.nodup_middle] at hnd
    rw [List.nodup_cons] at hnd
    apply hnd.1
    rw [← List.map_append]
    exact List.mem_map.2 ⟨r', hr', he⟩
  have hpostfit : 256 ∣ rdNext v.L e.off ∧ rdNext v.L e.off < 2 ^ 48 ∧ Seg v.L (rdNext v.L e.off) post 0 := by
    have hs := l.chain b hb
    rw [hch] at hs
    obtain ⟨x, _, h2⟩ := Seg.append.1 hs
    have h3 : Seg v.L (rdNext v.L e.off) post 0 := h2.2
    have := seg_fits hc ge h3 (fun r' h => ⟨_, hchm b r' (by rw [hch]; simp [h])⟩)
    exact ⟨this.1, this.2, h3⟩
  -- the cell written
  have hcell : ∃ k a x, CellAt c v k a ∧ L' = v.L.write a (k.enc x) ∧ (∀ id, k ≠ .state id) ∧
      (∀ r', (Own.linked, r') ∈ v.recs → pre.getLast? ≠ some r' → k ≠ .next r'.o.id) ∧
      (∀ b', b' ≠ b → k ≠ .head b') ∧ (pre ≠ [] → k ≠ .head b) := by
    rcases hL with ⟨h1, h2⟩ | ⟨pre', p, h1, h2⟩
    · refine ⟨.head b, _, rdNext v.L e.off, cellAt_head hb, h2, by simp, by simp, ?_, fun h => absurd h1 h⟩
      intro b' hb' h
      cases h; exact hb' rfl
    · have hp : (Own.linked, p) ∈ v.recs := hchm b p (by rw [hch, h1]; simp)
      refine ⟨.next p.o.id, _, rdNext v.L e.off, cellAt_next hp, h2, by simp, ?_, by simp, by simp⟩
      intro r' hr' hne h
      have h' : p.o.id = r'.o.id := by simpa using h
      have := ba.uniqId hp hr' h'
      cases this
      rw [h1] at hne
      simp at hne
  obtain ⟨k, a, x, hk, hLe, kn1, kn2, kn3, kn4⟩ := hcell
  have hwst : ∀ r', (Own.linked, r') ∈ v.recs → rdState L' r'.off = rdState v.L r'.off := by
    intro r' h
    rw [rdState_val, rdState_val, hLe]
    exact val_other hc ba ge (cellAt_state h) hk (fun e => kn1 _ e.symm) _ (Cell.enc_len _ _)
  have hwnx : ∀ r', (Own.linked, r') ∈ v.recs → pre.getLast? ≠ some r' → rdNext L' r'.off = rdNext v.L r'.off := by
    intro r' h hne
    rw [rdNext_val, rdNext_val, hLe]
    exact val_other hc ba ge (cellAt_next h) hk (fun e => kn2 r' h hne e.symm) _ (Cell.enc_len _ _)
  have hwhd : ∀ b', b' < 2 ^ c.bits → (b' ≠ b ∨ pre ≠ []) → rdHead L' c.bkDev b' = rdHead v.L c.bkDev b' := by
    intro b' hb' hne
    rw [rdHead_val, rdHead_val, hLe]
    refine val_other hc ba ge (cellAt_head hb') hk (fun e => ?_) _ (Cell.enc_len _ _)
    by_cases eb : b' = b
    · subst eb
      rcases hne with h | h
      · exact h rfl
      · exact kn4 h e.symm
    · exact kn3 b' eb e.symm
  have hat' : ∀ x ∈ v.recs, At x.2.o v.L x.2.off → At x.2.o L' x.2.off := by
    intro y hy h2
    rw [hLe]
    exact at_cell hc ba ge hk hy (Cell.enc_len _ _) h2
  have hlast : ∀ b', b' ≠ b → ∀ r' ∈ v.ch b', pre.getLast? ≠ some r' := by
    intro b' hne r' hr' h
    have : r' ∈ v.ch b := by rw [hch]; simp [List.mem_of_getLast? h]
    exact hne ((l.chb b' r' hr').symm.trans (l.chb b r' this))
  refine ⟨⟨?_, ?_, ?_, ?_, ?_⟩, ?_, hwst, hwnx, hat'⟩
  · intro r' h
    have h' := ((hmem r').1 h).1
    show At r'.o L' r'.off ∧ (rdState L' r'.off = _ ∨ rdState L' r'.off = _)
    rw [hwst r' h']
    exact ⟨hat' _ h' (l.att r' h').1, (l.att r' h').2⟩
  · intro r'
    show _ ↔ r' ∈ upd v.ch b (pre ++ post) (c.bkt r'.o.key)
    rw [hmem, l.lnk]
    simp only [upd]
    split
    · rename_i eb
      rw [eb, hch]
      constructor
      · rintro ⟨h1, h2⟩
        simp only [List.mem_append, List.mem_cons] at h1 ⊢
        rcases h1 with h1 | rfl | h1
        · exact .inl h1
        · exact absurd rfl h2
        · exact .inr h1
      · intro h
        refine ⟨?_, hnd' r' h⟩
        simp only [List.mem_append, List.mem_cons] at h ⊢
        rcases h with h | h
        · exact .inl h
        · exact .inr (.inr h)
    · rename_i eb
      refine ⟨fun h => h.1, fun h => ⟨h, ?_⟩⟩
      intro he
      have := ba.uniq (hchm _ r' h) hel he
      cases this
      exact eb hbk
  · intro b' r' h
    simp only [v', upd] at h
    split at h
    · rename_i eb
      rw [eb]
      apply l.chb b r'
      rw [hch]
      simp only [List.mem_append, List.mem_cons] at h ⊢
      rcases h with h | h
      · exact .inl h
      · exact .inr (.inr h)
    · exact l.chb b' r' h
  · intro b'
    simp only [v', upd]
    split
    · rw [List.map_append, List.map_cons, List.nodup_middle, List.nodup_cons] at hnd
      rw [List.map_append]; exact hnd.2
    · exact l.chn b'
  · intro b' hb'
    simp only [v', upd]
    split
    · rename_i eb
      subst eb
      have hs := l.chain b' hb'
      rw [hch] at hs
      obtain ⟨y, s1, s2⟩ := Seg.append.1 hs
      have hpost : Seg L' (rdNext v.L e.off) post 0 := by
        refine hpostfit.2.2.congr (fun r' h => hwnx r' (hchm b' r' (by rw [hch]; simp [h])) ?_)
        intro hl
        have hp := List.mem_of_getLast? hl
        rw [List.map_append, List.map_cons] at hnd
        exact (List.nodup_append.1 hnd).2.2 _ (List.mem_map.2 ⟨r', hp, rfl⟩) _ (by simp; exact .inr ⟨r', h, rfl⟩) rfl
      rcases hL with ⟨h1, h2⟩ | ⟨pre', p, h1, h2⟩
      · subst h1
        rw [List.nil_append]
        have : rdHead L' c.bkDev b' = rdNext v.L e.off := by
          rw [rdHead_val, h2]
          exact val_write (k := .head b') ⟨hpostfit.1, hpostfit.2.1⟩
        rw [this]; exact hpost
      · subst h1
        rw [hwhd b' hb' (.inr (by simp))]
        rw [List.append_assoc]
        obtain ⟨z, z1, z2⟩ := Seg.append.1 s1
        refine Seg.append.2 ⟨z, ?_, ?_⟩
        · refine z1.congr (fun r' h => hwnx r' (hchm b' r' (by rw [hch]; simp [h])) ?_)
          intro hl
          simp only [List.getLast?_append, List.getLast?_singleton, Option.some_or, Option.some.injEq] at hl
          subst hl
          rw [List.map_append, List.map_append] at hnd
          exact (List.nodup_append.1 (List.nodup_append.1 hnd).1).2.2 _ (List.mem_map.2 ⟨p, h, rfl⟩) _ (by simp) rfl
        · refine ⟨z2.1, ?_⟩
          have : rdNext L' p.off = rdNext v.L e.off := by
            rw [rdNext_val, h2]
            exact val_write (k := .next p.o.id) hpostfit.2.1
          rw [this]; exact hpost
    · rename_i eb
      rw [hwhd b' hb' (.inl eb)]
      exact (l.chain b' hb').congr (fun r' h => hwnx r' (hchm _ r' h) (hlast b' eb r' h))
  · funext key
    have hvr : ∀ b, ∀ r' ∈ v.ch b, ver L' r' = ver v.L r' := by
      intro b r' h
      simp [ver, hwst r' (hchm b r' h)]
    simp only [absOf, v', upd, Abs.set]
    by_cases ek : key = e.o.key
    · subst ek
      have hid : ∀ r' ∈ pre ++ post, (ver v.L r').id ≠ e.o.id := by
        intro r' hr' he
        have hm : r' ∈ v.ch b := by
          rw [hch]
          simp only [List.mem_append, List.mem_cons] at hr' ⊢
          rcases hr' with h | h
          · exact .inl h
          · exact .inr (.inr h)
        have := ba.uniqId (hchm b r' hm) hel he
        exact hnd' r' hr' (congrArg (fun x => x.2.off) this)
      simp only [if_pos, hbk, hch]
      rw [List.filter_append, List.filter_append, List.filter_cons, if_pos (by simp), List.map_append, List.map_append, List.map_cons,
        List.filter_append, List.filter_cons, if_neg (by simp [ver])]
      have aux : ∀ l' : List Rec, (∀ r' ∈ l', r' ∈ pre ++ post) →
          (l'.filter (fun r => r.o.key = e.o.key)).map (ver L') =
            ((l'.filter (fun r => r.o.key = e.o.key)).map (ver v.L)).filter (fun x => x.id ≠ e.o.id) := by
        intro l' hl'
        refine Eq.trans (b := (l'.filter (fun r => r.o.key = e.o.key)).map (ver v.L)) ?_
          (List.filter_eq_self.2 ?_).symm
        · apply List.map_congr_left
          intro r' h
          have hm := hl' r' (List.mem_of_mem_filter h)
          apply hvr b
          rw [hch]
          simp only [List.mem_append, List.mem_cons] at hm ⊢
          rcases hm with h | h
          · exact .inl h
          · exact .inr (.inr h)
        · intro x hx
          obtain ⟨r', h1, h2⟩ := List.mem_map.1 hx
          have := hid r' (hl' r' (List.mem_of_mem_filter h1))
          rw [h2] at this
          simpa using this
      rw [aux pre (fun r' h => by simp [h]), aux post (fun r' h => by simp [h])]
    · rw [if_neg ek]
      split
      · rename_i eb
        rw [eb, hch, List.filter_append, List.filter_append, List.filter_cons, if_neg (by simpa using fun h => ek h.symm),
          ← List.filter_append]
        apply List.map_congr_left
        intro r' h
        apply hvr b
        have hm := List.mem_of_mem_filter h
        rw [hch]
        simp only [List.mem_append, List.mem_cons] at hm ⊢
        rcases hm with h | h
        · exact .inl h
        · exact .inr (.inr h)
      · exact List.map_congr_left (fun r' h => hvr _ r' (List.mem_of_mem_filter h))

/-- an incomplete record becomes committed -/
theorem lists_state (l : Lists c v) {f : Rec} (hf : (Own.linked, f) ∈ v.recs) {L' : Mem}
    (hL : L' = v.L.write f.off (leBytes 1 stCommitted)) :
    Lists c { v with L := L' } ∧ absOf c { v with L := L' } = (absOf c v).set f.o.key
        ((absOf c v f.o.key).map (fun x => if x.id = f.o.id then { x with committed := true } else x)) ∧
      rdState L' f.off = stCommitted ∧
      (∀ r', (Own.linked, r') ∈ v.recs → r'.off ≠ f.off → rdState L' r'.off = rdState v.L r'.off) ∧
      (∀ r', (Own.linked, r') ∈ v.recs → rdNext L' r'.off = rdNext v.L r'.off) ∧
      (∀ x ∈ v.recs, At x.2.o v.L x.2.off → At x.2.o L' x.2.off) := by
  have hchm : ∀ b, ∀ r' ∈ v.ch b, (Own.linked, r') ∈ v.recs := by
    intro b r' h
    rw [l.lnk, l.chb b r' h]; exact h
  have hk := cellAt_state (c := c) hf
  have hst : rdState L' f.off = stCommitted := by
    rw [hL, rdState_val]
    exact val_write (k := .state f.o.id) (by decide : stCommitted < 2 ^ 8)
  have hso : ∀ r', (Own.linked, r') ∈ v.recs → r'.off ≠ f.off → rdState L' r'.off = rdState v.L r'.off := by
    intro r' h hne
    rw [rdState_val, rdState_val, hL]
    refine val_other hc ba ge (cellAt_state h) hk (fun e => ?_) _ (by simp [Cell.width])
    have e' : r'.o.id = f.o.id := by simpa using e
    have := ba.uniqId h hf e'
    cases this
    exact hne rfl
  have hnx : ∀ r', (Own.linked, r') ∈ v.recs → rdNext L' r'.off = rdNext v.L r'.off := by
    intro r' h
    rw [rdNext_val, rdNext_val, hL]
    exact val_other hc ba ge (cellAt_next h) hk (by simp) _ (by simp [Cell.width])
  have hat : ∀ x ∈ v.recs, At x.2.o v.L x.2.off → At x.2.o L' x.2.off := by
    intro y hy h2
    rw [hL]
    exact at_cell hc ba ge hk hy (by simp [Cell.width]) h2
  refine ⟨⟨?_, l.lnk, l.chb, l.chn, ?_⟩, ?_, hst, hso, hnx, hat⟩
  · intro r' h
    refine ⟨hat _ h (l.att r' h).1, ?_⟩
    by_cases e : r'.off = f.off
    · have := ba.uniq h hf e
      cases this
      exact .inr hst
    · simp only [hso r' h e]; exact (l.att r' h).2
  · intro b hb
    have : rdHead L' c.bkDev b = rdHead v.L c.bkDev b := by
      rw [rdHead_val, rdHead_val, hL]
      exact val_other hc ba ge (cellAt_head hb) hk (by simp) _ (by simp [Cell.width])
    simp only [this]
    exact (l.chain b hb).congr (fun r' h => hnx r' (hchm b r' h))
  · funext key
    simp only [absOf, Abs.set]
    by_cases ek : key = f.o.key
    · subst ek
      rw [if_pos rfl, List.map_map]
      apply List.map_congr_left
      intro r' h
      have hm := hchm _ r' (List.mem_of_mem_filter h)
      simp only [Function.comp, ver]
      by_cases e : r'.off = f.off
      · have := ba.uniq hm hf e
        cases this
        simp [hst]
      · have hne : r'.o.id ≠ f.o.id := by
          intro e'
          have := ba.uniqId hm hf e'
          cases this
          exact e rfl
        simp [hne, hso r' hm e]
    · rw [if_neg ek]
      apply List.map_congr_left
      intro r' h
      have hm := hchm _ r' (List.mem_of_mem_filter h)
      have e : r'.off ≠ f.off := by
        intro e
        have := ba.uniq hm hf e
        cases this
        have := List.of_mem_filter h
        have h' : f.o.key = key := by simpa using this
        exact ek h'.symm
      simp [ver, hso r' hm e]

end

end Lite
end Blobd
