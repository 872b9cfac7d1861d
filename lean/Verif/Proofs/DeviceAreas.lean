import Verif.Proofs.Device
set_option autoImplicit false
namespace Blobd
namespace Dev

theorem wwrite_ok {K : Kernel} (hK : K.Sound) {oth : File → File → Prop} {k : Kind} {w : Win} (hw : w.Made) {f g : File}
    {off : Nat} {data : List Byte} (h : WWrite K oth k w f off data (.ok ()) g) (ho : off + data.length < 2 ^ 64) {a : Nat}
    (hu : Untouched oth a) : g.bytes a = over f.bytes (w.start + off) data a := by
  cases h with
  | goes ha hwr =>
    obtain ⟨rfl, _⟩ := at_some hw (size := 0) ha ho
    exact (write_spec hK hwr hu).1 rfl

theorem wread_ok {K : Kernel} (hK : K.Sound) {oth : File → File → Prop} {k : Kind} {w : Win} (hw : w.Made) {f g : File}
    {off len : Nat} {d : List Byte} (h : WRead K oth k w f off len (.ok d) g) (ho : off + len < 2 ^ 64) :
    d.length = len ∧ ∀ i < len, Untouched oth (w.start + off + i) → d[i]? = some (f.bytes (w.start + off + i)) := by
  cases h with
  | goes ha hr =>
    obtain ⟨rfl, _⟩ := at_some hw (size := 0) ha ho
    exact read_ok hK hr

theorem wread_same {K : Kernel} {oth : File → File → Prop} {k : Kind} {w : Win} {f g : File}
    {off len : Nat} {r : Res (List Byte)} (h : WRead K oth k w f off len r g) {a : Nat} (hu : Untouched oth a) :
    g.bytes a = f.bytes a := by
  cases h with
  | refused => rfl
  | goes _ hr => exact read_same hr hu

theorem wread_size {K : Kernel} {oth : File → File → Prop} (hs : SameSize oth) {k : Kind} {w : Win} {f g : File}
    {off len : Nat} {r : Res (List Byte)} (h : WRead K oth k w f off len r g) : g.size = f.size := by
  cases h with
  | refused => rfl
  | goes _ hr => exact read_size hs hr

theorem wwrite_size {K : Kernel} {oth : File → File → Prop} (hs : SameSize oth) {k : Kind} {w : Win} {f g : File}
    {off : Nat} {data : List Byte} {r : Res Unit} (h : WWrite K oth k w f off data r g) : g.size = f.size := by
  cases h with
  | refused => rfl
  | goes _ hr => exact write_size hs hr

theorem wread_answered {K : Kernel} (hK : K.Healthy) {oth : File → File → Prop} (hs : SameSize oth) {k : Kind} {w : Win}
    (hw : w.Made) {f g : File} {off len : Nat} {r : Res (List Byte)} (h : WRead K oth k w f off len r g)
    (ho : off + len < 2 ^ 64) (hin : off + len ≤ w.len f.size) (hb : w.start + off + len ≤ f.size)
    (hl : k = .dsync ∨ len ≤ lenMax) : ∃ d, r = .ok d := by
  have e := at_in hw (size := f.size) ho (Or.inr hin)
  cases h with
  | refused ha => rw [e] at ha; cases ha
  | goes ha hr =>
    rw [e] at ha
    injection ha with ha
    subst ha
    exact read_answered hK hs hr hb hl

theorem wwrite_answered {K : Kernel} (hK : K.Healthy) {oth : File → File → Prop} (hs : SameSize oth) {k : Kind} {w : Win}
    (hw : w.Made) {f g : File} {off : Nat} {data : List Byte} {r : Res Unit} (h : WWrite K oth k w f off data r g)
    (ho : off + data.length < 2 ^ 64) (hin : off + data.length ≤ w.len f.size)
    (hb : w.start + off + data.length ≤ f.size) (hl : k = .dsync ∨ data.length ≤ lenMax) : r = .ok () := by
  have e := at_in hw (size := f.size) ho (Or.inr hin)
  cases h with
  | refused ha => rw [e] at ha; cases ha
  | goes ha hr =>
    rw [e] at ha
    injection ha with ha
    subst ha
    exact write_answered hK hs hr hb hl

theorem over_zero (b : Nat → Byte) (s n a : Nat) :
    over b s (List.replicate n 0) a = if s ≤ a ∧ a < s + n then 0 else b a := by
  unfold over
  simp only [List.length_replicate]
  by_cases h : s ≤ a ∧ a < s + n
  · rw [if_pos h, if_pos h, List.getD_eq_getElem?_getD, List.getElem?_replicate]
    split <;> rfl
  · rw [if_neg h, if_neg h]

theorem zeroes_pieces {K : Kernel} (hK : K.Sound) {oth : File → File → Prop} {k : Kind} {w : Win} (hw : w.Made) {len step : Nat}
    (hlen : len < 2 ^ 64) (hstep : 0 < step) {a : Nat} (hu : Untouched oth a) (off : Nat) : ∀ {f g : File},
    Zeroes K oth k w f (pieces len step off) (.ok ()) g →
    g.bytes a = if w.start + off ≤ a ∧ a < w.start + len then 0 else f.bytes a := by
  induction off using pieces.induct len step with
  | case1 off hc ih =>
    intro f g h
    rw [pieces, dif_pos hc] at h
    cases h with
    | more h1 h2 =>
      have e1 := wwrite_ok hK hw h1 (by simp only [List.length_replicate]; omega) hu
      rw [over_zero] at e1
      rw [ih h2, e1]
      simp only
      by_cases c1 : w.start + off ≤ a ∧ a < w.start + len
      · rw [if_pos c1]
        by_cases c2 : w.start + (off + step) ≤ a ∧ a < w.start + len
        · rw [if_pos c2]
        · rw [if_neg c2, if_pos (by omega)]
      · rw [if_neg c1, if_neg (by omega), if_neg (by omega)]
  | case2 off hc =>
    intro f g h
    rw [pieces, dif_neg hc] at h
    cases h with
    | done => rw [if_neg (by omega)]

theorem loads_pieces {K : Kernel} (hK : K.Sound) {oth : File → File → Prop} {k : Kind} {w : Win} (hw : w.Made) {len step : Nat}
    (hlen : len < 2 ^ 64) (hstep : 0 < step) (hu : ∀ a < len, Untouched oth (w.start + a)) (off : Nat) :
    ∀ {f g : File} {d : List Byte}, Loads K oth k w f (pieces len step off) (.ok d) g →
    d.length = len - off ∧ ∀ i < len - off, d[i]? = some (f.bytes (w.start + off + i)) := by
  induction off using pieces.induct len step with
  | case1 off hc ih =>
    intro f g d h
    rw [pieces, dif_pos hc] at h
    cases h with
    | @more _ g1 _ _ _ d1 e h1 h2 =>
      obtain ⟨a1, a2⟩ := wread_ok hK hw h1 (by simp only; omega)
      obtain ⟨b1, b2⟩ := ih h2
      simp only at a1 a2
      refine ⟨by rw [List.length_append, a1, b1]; omega, fun i hi => ?_⟩
      by_cases hin : i < d1.length
      · rw [List.getElem?_append_left hin, a2 i (by omega) (by rw [Nat.add_assoc]; exact hu _ (by omega))]
      · rw [List.getElem?_append_right (by omega), b2 _ (by omega)]
        have e : w.start + (off + step) + (i - d1.length) = w.start + off + i := by omega
        rw [e, wread_same h1 (by rw [Nat.add_assoc]; exact hu _ (by omega))]
  | case2 off hc =>
    intro f g d h
    rw [pieces, dif_neg hc] at h
    cases h with
    | done => exact ⟨by simp; omega, fun i hi => by omega⟩

theorem zeroes_answered {K : Kernel} (hK : K.Healthy) {oth : File → File → Prop} (hs : SameSize oth) {k : Kind} {w : Win}
    (hw : w.Made) {len step size : Nat} (hlen : len < 2 ^ 64) (hl : k = .dsync ∨ step ≤ lenMax) (hin : len ≤ w.len size)
    (hb : w.start + len ≤ size) (off : Nat) : ∀ {f g : File} {r : Res Unit}, f.size = size →
    Zeroes K oth k w f (pieces len step off) r g → r = .ok () := by
  induction off using pieces.induct len step with
  | case1 off hc ih =>
    intro f g r hf h
    rw [pieces, dif_pos hc] at h
    cases h with
    | more h1 h2 => exact ih (by rw [wwrite_size hs h1, hf]) h2
    | fails h1 =>
      have := wwrite_answered hK hs hw h1 (by simp only [List.length_replicate]; omega)
        (by simp only [List.length_replicate, hf]; omega) (by simp only [List.length_replicate]; omega)
        (by simp only [List.length_replicate]; rcases hl with h | h
            · exact Or.inl h
            · right; omega)
      cases this
  | case2 off hc =>
    intro f g r _ h
    rw [pieces, dif_neg hc] at h
    cases h with
    | done => rfl

theorem loads_answered {K : Kernel} (hK : K.Healthy) {oth : File → File → Prop} (hs : SameSize oth) {k : Kind} {w : Win}
    (hw : w.Made) {len step size : Nat} (hlen : len < 2 ^ 64) (hl : k = .dsync ∨ step ≤ lenMax) (hin : len ≤ w.len size)
    (hb : w.start + len ≤ size) (off : Nat) : ∀ {f g : File} {r : Res (List Byte)}, f.size = size →
    Loads K oth k w f (pieces len step off) r g → ∃ d, r = .ok d := by
  induction off using pieces.induct len step with
  | case1 off hc ih =>
    intro f g r hf h
    rw [pieces, dif_pos hc] at h
    cases h with
    | more => exact ⟨_, rfl⟩
    | later h1 h2 => obtain ⟨d, hd⟩ := ih (by rw [wread_size hs h1, hf]) h2; cases hd
    | fails h1 =>
      obtain ⟨d, hd⟩ := wread_answered hK hs hw h1 (by simp only; omega) (by simp only [hf]; omega) (by simp only; omega)
        (by rcases hl with h | h
            · exact Or.inl h
            · right; simp only; omega)
      cases hd
  | case2 off hc =>
    intro f g r _ h
    rw [pieces, dif_neg hc] at h
    cases h with
    | done => exact ⟨_, rfl⟩

theorem kvBuf_small {s : Nat} (h : s ≤ 12) : kvBuf s = lenMax := by
  have : ∀ x : Fin 13, kvBuf x = lenMax := by decide
  exact this ⟨s, by omega⟩

theorem kvBuf_big {s : Nat} (h : 13 ≤ s) (h2 : s ≤ 24) : kvBuf s = 2 ^ 31 := by
  have : ∀ x : Fin 12, kvBuf (13 + x) = 2 ^ 31 := by decide
  have := this ⟨s - 13, by omega⟩
  rwa [show 13 + (⟨s - 13, by omega⟩ : Fin 12).val = s from by simp only; omega] at this

/-! ## The device of lite's tests -/

/-- every page has 4096 bytes -/
def Mock.Ok (m : Mock) : Prop := ∀ k p, m.pages k = some p → p.length = 4096

theorem entry_length {m : Mock} (h : m.Ok) (k : Nat) : (m.entry k).length = 4096 := by
  unfold Mock.entry
  cases e : m.pages k with
  | none => exact List.length_replicate
  | some p => exact h k p e

theorem entry_get {m : Mock} (h : m.Ok) (k j : Nat) (hj : j < 4096) : (m.entry k)[j]? = some (m.flat (k * 4096 + j)) := by
  have h1 : (k * 4096 + j) / 4096 = k := by omega
  have h2 : (k * 4096 + j) % 4096 = j := by omega
  unfold Mock.entry Mock.flat
  rw [h1, h2]
  cases e : m.pages k with
  | none =>
    show (List.replicate 4096 (0 : Byte))[j]? = some 0
    rw [List.getElem?_replicate, if_pos hj]
  | some p =>
    have := h k p e
    simp [List.getD_eq_getElem?_getD, List.getElem?_eq_getElem (show j < p.length by omega)]

theorem set_ok {m : Mock} (h : m.Ok) {k : Nat} {p : List Byte} (hp : p.length = 4096) : (m.set k p).Ok := by
  intro k' p' e
  simp only [Mock.set] at e
  split at e
  · injection e with e; exact e ▸ hp
  · exact h _ _ e

theorem flat_set (m : Mock) (k : Nat) (p : List Byte) (a : Nat) :
    (m.set k p).flat a = if a / 4096 = k then p.getD (a % 4096) 0 else m.flat a := by
  unfold Mock.flat Mock.set
  by_cases h : a / 4096 = k
  · simp [h]
  · simp [h]

theorem flat_touch {m : Mock} (h : m.Ok) (k a : Nat) : (m.set k (m.entry k)).flat a = m.flat a := by
  rw [flat_set]
  split
  · rename_i e
    rw [List.getD_eq_getElem?_getD, entry_get h k _ (Nat.mod_lt _ (by omega))]
    simp only [Option.getD_some]
    congr 1
    omega
  · rfl

theorem readFrom_spec (stop : Nat) (m : Mock) (next : Nat) : m.Ok →
    (m.readFrom next stop).2.Ok ∧ (∀ a, (m.readFrom next stop).2.flat a = m.flat a) ∧
    (m.readFrom next stop).1 = (List.range (stop - next)).map fun i => m.flat (next + i) := by
  induction m, next using Mock.readFrom.induct stop with
  | case1 m next hc page off n p ih =>
    intro hok
    have hlen : p.length = 4096 := entry_length hok page
    obtain ⟨h1, h2, h3⟩ := ih (set_ok hok hlen)
    rw [Mock.readFrom, dif_pos hc]
    refine ⟨h1, fun a => by rw [show ∀ a, _ from h2]; exact flat_touch hok page a, ?_⟩
    have hn : n = min (stop - next) (4096 - off) := rfl
    have hoff : off = next % 4096 := rfl
    have hpage : page = next / 4096 := rfl
    have hp : p = m.entry page := rfl
    have hlt : off < 4096 := by omega
    show List.take n (List.drop off p) ++ ((m.set page p).readFrom (next + n) stop).1 = _
    rw [h3]
    apply List.ext_getElem?
    intro i
    by_cases hi : i < n
    · rw [List.getElem?_append_left (by rw [List.length_take, List.length_drop]; omega), List.getElem?_take, if_pos hi,
        List.getElem?_drop, hp, entry_get hok _ _ (by omega)]
      rw [List.getElem?_map, List.getElem?_range (by omega)]
      simp only [Option.map_some]
      congr 2
      omega
    · rw [List.getElem?_append_right (by rw [List.length_take, List.length_drop]; omega)]
      have e : (List.take n (List.drop off p)).length = n := by rw [List.length_take, List.length_drop]; omega
      rw [e]
      by_cases hi2 : i < stop - next
      · rw [List.getElem?_map, List.getElem?_map, List.getElem?_range (by omega), List.getElem?_range hi2]
        simp only [Option.map_some]
        rw [hp, flat_touch hok]
        congr 2
        omega
      · rw [List.getElem?_eq_none (by simp; omega), List.getElem?_eq_none (by simp; omega)]
  | case2 m next hc =>
    intro hok
    rw [Mock.readFrom, dif_neg hc]
    refine ⟨hok, fun _ => rfl, ?_⟩
    rw [show stop - next = 0 from by omega]; rfl

theorem writeFrom_spec (stop : Nat) (m : Mock) (next : Nat) (cur : List Byte) : m.Ok → cur.length = stop - next →
    (m.writeFrom next stop cur).Ok ∧ ∀ a, (m.writeFrom next stop cur).flat a = over m.flat next cur a := by
  induction m, next, cur using Mock.writeFrom.induct stop with
  | case1 m next cur hc page off n p p' ih =>
    intro hok hcur
    have hn : n = min (stop - next) (4096 - off) := rfl
    have hoff : off = next % 4096 := rfl
    have hpage : page = next / 4096 := rfl
    have hp : p = m.entry page := rfl
    have hp' : p' = p.take off ++ cur.take n ++ p.drop (off + n) := rfl
    have hlt : off < 4096 := by omega
    have hlen : p.length = 4096 := entry_length hok page
    have hlen2 : (m.entry page).length = 4096 := hlen
    have hlen' : p'.length = 4096 := by
      rw [hp', List.length_append, List.length_append, List.length_take, List.length_take, List.length_drop]
      omega
    obtain ⟨h1, h2⟩ := ih (set_ok hok hlen') (by rw [List.length_drop]; omega)
    rw [Mock.writeFrom, dif_pos hc]
    refine ⟨h1, fun a => ?_⟩
    have h2a := h2 a
    refine h2a.trans ?_
    have hnl : n ≤ cur.length := by omega
    unfold over
    rw [List.length_drop]
    by_cases c1 : next + n ≤ a ∧ a < next + n + (cur.length - n)
    · rw [if_pos c1, if_pos ⟨by omega, by omega⟩, List.getD_eq_getElem?_getD, List.getD_eq_getElem?_getD, List.getElem?_drop]
      congr 2; omega
    · rw [if_neg c1, flat_set]
      by_cases c2 : a / 4096 = page
      · rw [if_pos c2, hp', List.getD_eq_getElem?_getD]
        by_cases c3 : a % 4096 < off
        · rw [List.append_assoc, List.getElem?_append_left (by rw [List.length_take]; omega), List.getElem?_take, if_pos c3, hp,
            entry_get hok _ _ (by omega), if_neg (by omega)]
          simp only [Option.getD_some]
          congr 1
          omega
        · by_cases c4 : a % 4096 < off + n
          · rw [List.getElem?_append_left (by rw [List.length_append, List.length_take, List.length_take]; omega),
              List.getElem?_append_right (by rw [List.length_take]; omega), List.length_take, List.getElem?_take, if_pos (by omega),
              if_pos ⟨by omega, by omega⟩, List.getD_eq_getElem?_getD]
            congr 2
            omega
          · rw [List.getElem?_append_right (by rw [List.length_append, List.length_take, List.length_take]; omega),
              List.getElem?_drop, List.length_append, List.length_take, List.length_take, hp, entry_get hok _ _ (by omega),
              if_neg (by omega)]
            simp only [Option.getD_some]
            congr 1
            rw [← hp]
            omega
      · rw [if_neg c2, if_neg (by omega)]
  | case2 m next cur hc =>
    intro hok hcur
    rw [Mock.writeFrom, dif_neg hc]
    exact ⟨hok, fun a => by unfold over; rw [if_neg (by omega)]⟩

theorem made_ok {m : Mock} (h : m.Made) : m.Ok := by
  induction h with
  | new => intro k p e; cases e
  | read start len _ ih => exact (readFrom_spec _ _ _ ih).1
  | write start data _ ih => exact (writeFrom_spec _ _ _ _ ih (by omega)).1

end Dev
end Blobd
