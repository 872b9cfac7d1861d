import Verif.Spec.Device
import Verif.Proofs.Util
set_option autoImplicit false
namespace Blobd
namespace Dev

theorem others_bytes {oth : File → File → Prop} {a : Nat} (ha : Untouched oth a) {f g : File} (h : Others oth f g) :
    g.bytes a = f.bytes a := by
  induction h with
  | none => rfl
  | one _ h2 ih => rw [ha _ _ h2, ih]

theorem others_size {oth : File → File → Prop} (ha : SameSize oth) {f g : File} (h : Others oth f g) : g.size = f.size := by
  induction h with
  | none => rfl
  | one _ h2 ih => rw [ha _ _ h2, ih]

theorem slice_length (f : File) (off n : Nat) : (f.slice off n).length = n := by simp [File.slice]

theorem slice_get (f : File) (off n i : Nat) (h : i < n) : (f.slice off n)[i]? = some (f.bytes (off + i)) := by
  simp [File.slice, h]

theorem allRead_ok {K : Kernel} (hK : K.Sound) {oth : File → File → Prop} {f h : File} {off len : Nat} {r : Res (List Byte)}
    (hr : AllRead K oth f off len r h) : ∀ d, r = .ok d → d.length = len ∧
      ∀ i < len, Untouched oth (off + i) → d[i]? = some (f.bytes (off + i)) := by
  induction hr with
  | done => intro d hd; injection hd with hd; subst hd; exact ⟨rfl, fun i hi => absurd hi (by omega)⟩
  | @more f g h off len n d hl ho hk hn _ ih =>
    intro d' hd
    injection hd with hd; subst hd
    obtain ⟨h1, h2⟩ := ih d rfl
    have h3 := (hK _ _ _ _ hk).1
    refine ⟨by simp [slice_length, h1]; omega, fun i hi hu => ?_⟩
    by_cases hin : i < n
    · rw [List.getElem?_append_left (by simp [slice_length, hin]), slice_get _ _ _ _ hin, others_bytes hu ho]
    · rw [List.getElem?_append_right (by simp [slice_length]; omega), slice_length]
      have e : off + n + (i - n) = off + i := by omega
      have := h2 (i - n) (by omega) (by rw [e]; exact hu)
      rw [this, e, others_bytes hu ho]
  | fails => intro d hd; cases hd
  | @again f g h off len r hl ho hk _ ih =>
    intro d hd
    obtain ⟨h1, h2⟩ := ih d hd
    exact ⟨h1, fun i hi hu => by rw [h2 i hi hu, others_bytes hu ho]⟩
  | eof => intro d hd; cases hd
  | error => intro d hd; cases hd

theorem allRead_same {K : Kernel} {oth : File → File → Prop} {f h : File} {off len : Nat} {r : Res (List Byte)}
    (hr : AllRead K oth f off len r h) {a : Nat} (hu : Untouched oth a) : h.bytes a = f.bytes a := by
  induction hr with
  | done => rfl
  | more _ ho _ _ _ ih => rw [ih, others_bytes hu ho]
  | fails _ ho _ _ _ ih => rw [ih, others_bytes hu ho]
  | again _ ho _ _ ih => rw [ih, others_bytes hu ho]
  | eof _ ho => exact others_bytes hu ho
  | error _ ho => exact others_bytes hu ho

theorem put_over (f : File) (off : Nat) (data : List Byte) : (f.put off data data.length).bytes = over f.bytes off data := rfl

theorem put_or (f : File) (off : Nat) (data : List Byte) {n : Nat} (hn : n ≤ data.length) (a : Nat) :
    (f.put off data n).bytes a = f.bytes a ∨ (f.put off data n).bytes a = over f.bytes off data a := by
  unfold File.put over
  by_cases h : off ≤ a ∧ a < off + n
  · right
    show (if off ≤ a ∧ a < off + n then _ else _) = if off ≤ a ∧ a < off + data.length then _ else _
    rw [if_pos h, if_pos ⟨h.1, by omega⟩]
  · left
    simp only [h, if_false]

/-- writing the first `n` bytes and then the rest is writing all -/
theorem over_put (f : File) (off : Nat) (data : List Byte) {n : Nat} (hn : n ≤ data.length) (a : Nat) :
    over (f.put off data n).bytes (off + n) (data.drop n) a = over f.bytes off data a := by
  unfold File.put over
  simp only [List.length_drop]
  by_cases h1 : off + n ≤ a ∧ a < off + n + (data.length - n)
  · rw [if_pos h1, if_pos ⟨by omega, by omega⟩, List.getD_eq_getElem?_getD, List.getD_eq_getElem?_getD, List.getElem?_drop]
    congr 2; omega
  · rw [if_neg h1]
    by_cases h2 : off ≤ a ∧ a < off + n
    · rw [if_pos h2, if_pos ⟨h2.1, by omega⟩]
    · rw [if_neg h2, if_neg (by omega)]

theorem over_congr {b b' : Nat → Byte} {start : Nat} {data : List Byte} {a : Nat} (h : b a = b' a) :
    over b start data a = over b' start data a := by unfold over; rw [h]

theorem allWrite_spec {K : Kernel} (hK : K.Sound) {oth : File → File → Prop} {f h : File} {off : Nat} {data : List Byte}
    {r : Res Unit} (hr : AllWrite K oth f off data r h) {a : Nat} (hu : Untouched oth a) :
    (r = .ok () → h.bytes a = over f.bytes off data a) ∧ (h.bytes a = f.bytes a ∨ h.bytes a = over f.bytes off data a) := by
  induction hr with
  | @done f off =>
    have : over f.bytes off [] a = f.bytes a := by unfold over; rw [if_neg (by simp)]
    exact ⟨fun _ => this.symm, Or.inl rfl⟩
  | @more f g h off n data r hd ho hk hn _ ih =>
    have hle := (hK _ _ _ _ hk).1
    have e := over_put g off data hle a
    have eb := others_bytes hu ho
    have e2 : over g.bytes off data a = over f.bytes off data a := over_congr eb
    refine ⟨fun hrr => by rw [ih.1 hrr, e, e2], ?_⟩
    rcases ih.2 with h1 | h1
    · rcases put_or g off data hle a with h2 | h2
      · left; rw [h1, h2, eb]
      · right; rw [h1, h2, e2]
    · right; rw [h1, e, e2]
  | @again f g h off data r hd ho hk _ ih =>
    have eb := others_bytes hu ho
    have e2 : over g.bytes off data a = over f.bytes off data a := over_congr eb
    exact ⟨fun hrr => by rw [ih.1 hrr, e2], by rw [← eb, ← e2]; exact ih.2⟩
  | eof _ ho => exact ⟨fun h => (by cases h), Or.inl (others_bytes hu ho)⟩
  | error _ ho => exact ⟨fun h => (by cases h), Or.inl (others_bytes hu ho)⟩

theorem read_ok {K : Kernel} (hK : K.Sound) {oth : File → File → Prop} {k : Kind} {f g : File} {off len : Nat} {d : List Byte}
    (h : Read K oth k f off len (.ok d) g) : d.length = len ∧
      ∀ i < len, Untouched oth (off + i) → d[i]? = some (f.bytes (off + i)) := by
  cases h with
  | one _ hj ho hr _ =>
    cases hr with
    | ok hk hn =>
      subst hn
      refine ⟨by simp [slice_length]; omega, fun i hi hu => ?_⟩
      rw [List.getElem?_append_left (by simp [slice_length, hi]), slice_get _ _ _ _ hi, others_bytes hu ho]
  | all hr ho => exact allRead_ok hK hr d rfl

theorem read_same {K : Kernel} {oth : File → File → Prop} {k : Kind} {f g : File} {off len : Nat} {r : Res (List Byte)}
    (h : Read K oth k f off len r g) {a : Nat} (hu : Untouched oth a) : g.bytes a = f.bytes a := by
  cases h with
  | one _ _ ho _ ho2 => rw [others_bytes hu ho2, others_bytes hu ho]
  | all hr ho => rw [others_bytes hu ho, allRead_same hr hu]

theorem write_spec {K : Kernel} (hK : K.Sound) {oth : File → File → Prop} {k : Kind} {f g : File} {off : Nat}
    {data : List Byte} {r : Res Unit} (h : Write K oth k f off data r g) {a : Nat} (hu : Untouched oth a) :
    (r = .ok () → g.bytes a = over f.bytes off data a) ∧ (g.bytes a = f.bytes a ∨ g.bytes a = over f.bytes off data a) := by
  cases h with
  | @one _ _ f1 f2 _ _ _ _ _ ho hw ho2 =>
    have e1 := others_bytes hu ho
    have e2 := others_bytes hu ho2
    have e3 : over f1.bytes off data a = over f.bytes off data a := over_congr e1
    cases hw with
    | ok hk hn =>
      subst hn
      rw [e2, put_over, e3]; exact ⟨fun _ => rfl, Or.inr rfl⟩
    | short hk hn =>
      refine ⟨fun h => (by cases h), ?_⟩
      rw [e2, ← e1, ← e3]; exact put_or _ _ _ (hK _ _ _ _ hk).1 a
    | interrupted => exact ⟨fun h => (by cases h), Or.inl (by rw [e2, e1])⟩
    | error => exact ⟨fun h => (by cases h), Or.inl (by rw [e2, e1])⟩
  | all hw ho =>
    rw [others_bytes hu ho]; exact allWrite_spec hK hw hu

/-! ## Answers of a healthy system -/

theorem healthy_sound {K : Kernel} (h : K.Healthy) : K.Sound := by
  intro f off len n hk
  have := h _ _ _ _ hk
  injection this with e
  omega

theorem allRead_size {K : Kernel} {oth : File → File → Prop} (hs : SameSize oth) {f h : File} {off len : Nat}
    {r : Res (List Byte)} (hr : AllRead K oth f off len r h) : h.size = f.size := by
  induction hr with
  | done => rfl
  | more _ ho _ _ _ ih => rw [ih, others_size hs ho]
  | fails _ ho _ _ _ ih => rw [ih, others_size hs ho]
  | again _ ho _ _ ih => rw [ih, others_size hs ho]
  | eof _ ho => exact others_size hs ho
  | error _ ho => exact others_size hs ho

theorem allWrite_size {K : Kernel} {oth : File → File → Prop} (hs : SameSize oth) {f h : File} {off : Nat}
    {data : List Byte} {r : Res Unit} (hr : AllWrite K oth f off data r h) : h.size = f.size := by
  induction hr with
  | done => rfl
  | @more f g h off n data r _ ho _ _ _ ih => rw [ih]; show g.size = _; exact others_size hs ho
  | again _ ho _ _ ih => rw [ih, others_size hs ho]
  | eof _ ho => exact others_size hs ho
  | error _ ho => exact others_size hs ho

theorem read_size {K : Kernel} {oth : File → File → Prop} (hs : SameSize oth) {k : Kind} {f g : File} {off len : Nat}
    {r : Res (List Byte)} (h : Read K oth k f off len r g) : g.size = f.size := by
  cases h with
  | one _ _ ho _ ho2 => rw [others_size hs ho2, others_size hs ho]
  | all hr ho => rw [others_size hs ho, allRead_size hs hr]

theorem write_size {K : Kernel} {oth : File → File → Prop} (hs : SameSize oth) {k : Kind} {f g : File} {off : Nat}
    {data : List Byte} {r : Res Unit} (h : Write K oth k f off data r g) : g.size = f.size := by
  cases h with
  | one _ ho hw ho2 =>
    rw [others_size hs ho2]
    have e := others_size hs ho
    cases hw <;> simpa [File.put] using e
  | all hr ho => rw [others_size hs ho, allWrite_size hs hr]

theorem allRead_answered {K : Kernel} (hK : K.Healthy) {oth : File → File → Prop} (hs : SameSize oth) {f h : File}
    {off len : Nat} {r : Res (List Byte)} (hr : AllRead K oth f off len r h) : off + len ≤ f.size → ∃ d, r = .ok d := by
  induction hr with
  | done => intro _; exact ⟨_, rfl⟩
  | more => intro _; exact ⟨_, rfl⟩
  | @fails f g h off len n hl ho hk hn _ ih =>
    intro hb
    have e := hK _ _ _ _ hk
    injection e with e
    have := others_size hs ho
    exact ih (by omega)
  | again _ _ hk => intro _; cases hK _ _ _ _ hk
  | @eof f g off len hl ho hk =>
    intro hb
    have e := hK _ _ _ _ hk
    injection e with e
    have := others_size hs ho
    simp only [lenMax] at e
    omega
  | error _ _ hk => intro _; cases hK _ _ _ _ hk

theorem allWrite_answered {K : Kernel} (hK : K.Healthy) {oth : File → File → Prop} (hs : SameSize oth) {f h : File}
    {off : Nat} {data : List Byte} {r : Res Unit} (hr : AllWrite K oth f off data r h) :
    off + data.length ≤ f.size → r = .ok () := by
  induction hr with
  | done => intro _; rfl
  | @more f g h off n data r hd ho hk hn _ ih =>
    intro hb
    have e := hK _ _ _ _ hk
    injection e with e
    have := others_size hs ho
    refine ih ?_
    simp only [List.length_drop, File.put]
    omega
  | again _ _ hk => intro _; cases hK _ _ _ _ hk
  | @eof f g off data hl ho hk =>
    intro hb
    have e := hK _ _ _ _ hk
    injection e with e
    have := others_size hs ho
    have := List.length_pos_iff.mpr hl
    simp only [lenMax] at e
    omega
  | error _ _ hk => intro _; cases hK _ _ _ _ hk

theorem read_answered {K : Kernel} (hK : K.Healthy) {oth : File → File → Prop} (hs : SameSize oth) {k : Kind} {f g : File}
    {off len : Nat} {r : Res (List Byte)} (h : Read K oth k f off len r g) (hb : off + len ≤ f.size)
    (hl : k = .dsync ∨ len ≤ lenMax) : ∃ d, r = .ok d := by
  cases h with
  | one hk hj ho hr _ =>
    have := others_size hs ho
    have hl := hl.resolve_left hk
    cases hr with
    | ok => exact ⟨_, rfl⟩
    | short hk hn =>
      have e := hK _ _ _ _ hk
      injection e with e
      omega
    | interrupted hk => cases hK _ _ _ _ hk
    | error hk => cases hK _ _ _ _ hk
  | all hr _ => exact allRead_answered hK hs hr hb

theorem write_answered {K : Kernel} (hK : K.Healthy) {oth : File → File → Prop} (hs : SameSize oth) {k : Kind} {f g : File}
    {off : Nat} {data : List Byte} {r : Res Unit} (h : Write K oth k f off data r g) (hb : off + data.length ≤ f.size)
    (hl : k = .dsync ∨ data.length ≤ lenMax) : r = .ok () := by
  cases h with
  | one hk ho hw _ =>
    have := others_size hs ho
    have hl := hl.resolve_left hk
    cases hw with
    | ok => rfl
    | short hk hn =>
      have e := hK _ _ _ _ hk
      injection e with e
      omega
    | interrupted hk => cases hK _ _ _ _ hk
    | error hk => cases hK _ _ _ _ hk
  | all hr _ => exact allWrite_answered hK hs hr hb

theorem read_too_long {K : Kernel} (hK : K.Sound) {oth : File → File → Prop} {k : Kind} (hk : k ≠ .dsync) {f g : File}
    {off len : Nat} (hl : lenMax < len) {r : Res (List Byte)} (h : Read K oth k f off len r g) : r = .panic := by
  cases h with
  | one _ hj ho hr _ =>
    cases hr with
    | ok hk hn => have := (hK _ _ _ _ hk).2.1; omega
    | short => rfl
    | interrupted => rfl
    | error => rfl
  | all => exact absurd rfl hk

theorem write_too_long {K : Kernel} (hK : K.Sound) {oth : File → File → Prop} {k : Kind} (hk : k ≠ .dsync) {f g : File}
    {off : Nat} {data : List Byte} (hl : lenMax < data.length) {r : Res Unit} (h : Write K oth k f off data r g) :
    r = .panic := by
  cases h with
  | one _ ho hr _ =>
    cases hr with
    | ok hk hn => have := (hK _ _ _ _ hk).2.1; omega
    | short => rfl
    | interrupted => rfl
    | error => rfl
  | all => exact absurd rfl hk

/-! ## Windows -/

theorem at_some {w : Win} (hw : w.Made) {size off n a : Nat} (h : w.at? off n = some a) (hn : off + n < 2 ^ 64) :
    a = w.start + off ∧ (w = .raw ∨ off + n ≤ w.len size) := by
  cases w with
  | raw => simp only [Win.at?] at h; injection h with h; exact ⟨by simp [Win.start, h], Or.inl rfl⟩
  | part p =>
    simp only [Win.at?, Part.at?] at h
    simp only [Win.Made] at hw
    split at h
    · rename_i hle
      injection h with h
      rw [wadd, Nat.mod_eq_of_lt hn] at hle
      rw [wadd, Nat.mod_eq_of_lt (by omega)] at h
      exact ⟨by simp [Win.start, h], Or.inr hle⟩
    · cases h
  | bounded b =>
    simp only [Win.at?, Bounded.at?] at h
    obtain ⟨h1, h2, h3⟩ := hw
    have h2' : b.offset + b.len ≤ b.part.len := by
      unfold Part.bounded at h2
      split at h2
      · rename_i hle; rwa [wadd, Nat.mod_eq_of_lt h3] at hle
      · cases h2
    split at h
    · rename_i hle
      rw [wadd, Nat.mod_eq_of_lt hn] at hle
      rw [wadd, Nat.mod_eq_of_lt (by omega)] at h
      unfold Part.at? at h
      split at h
      · injection h with h
        rw [wadd, Nat.mod_eq_of_lt (by omega)] at h
        exact ⟨by simp [Win.start, ← h]; omega, Or.inr hle⟩
      · cases h
    · cases h

theorem at_in {w : Win} (hw : w.Made) {size off n : Nat} (hn : off + n < 2 ^ 64) (h : w = .raw ∨ off + n ≤ w.len size) :
    w.at? off n = some (w.start + off) := by
  cases w with
  | raw => simp [Win.at?, Win.start]
  | part p =>
    have h := h.resolve_left (by simp)
    simp only [Win.Made] at hw
    simp only [Win.at?, Part.at?, Win.start, Win.len] at h ⊢
    rw [if_pos (by rw [wadd, Nat.mod_eq_of_lt hn]; exact h), wadd, Nat.mod_eq_of_lt (by omega)]
  | bounded b =>
    have h := h.resolve_left (by simp)
    obtain ⟨h1, h2, h3⟩ := hw
    have h2' : b.offset + b.len ≤ b.part.len := by
      unfold Part.bounded at h2
      split at h2
      · rename_i hle; rwa [wadd, Nat.mod_eq_of_lt h3] at hle
      · cases h2
    simp only [Win.at?, Bounded.at?, Part.at?, Win.start, Win.len] at h ⊢
    rw [if_pos (by rw [wadd, Nat.mod_eq_of_lt hn]; exact h)]
    rw [show wadd b.offset off = b.offset + off from by rw [wadd, Nat.mod_eq_of_lt (by omega)]]
    rw [if_pos (by rw [wadd, Nat.mod_eq_of_lt (by omega)]; omega), wadd, Nat.mod_eq_of_lt (by omega), Nat.add_assoc]

theorem list_of_get {d : List Byte} {n : Nat} {b : Nat → Byte} (hl : d.length = n) (h : ∀ i < n, d[i]? = some (b i)) :
    d = (List.range n).map b := by
  apply List.ext_getElem?
  intro i
  by_cases hi : i < n
  · rw [h i hi]; simp [hi]
  · rw [List.getElem?_eq_none (by omega), List.getElem?_eq_none (by simp; omega)]

theorem over_shift (b : Nat → Byte) (s off : Nat) (data : List Byte) (a : Nat) :
    over b (s + off) data (s + a) = over (fun x => b (s + x)) off data a := by
  unfold over
  by_cases h : off ≤ a ∧ a < off + data.length
  · rw [if_pos h, if_pos ⟨by omega, by omega⟩]; congr 1; omega
  · rw [if_neg h, if_neg (by omega)]

/-- a call acts on its own window as on a disk -/
theorem call_own {K : Kernel} (hK : K.Sound) {oth : File → File → Prop} {k : Kind} {w : Win} (hw : w.Made) (hr : w ≠ .raw)
    {f g : File} {o : Op} {x : Ans} (h : Call K oth k w f o x g) (ho : o.Small) {size : Nat}
    (hu : ∀ a < w.len size, Untouched oth (w.start + a)) :
    Does (w.len size) (fun a => f.bytes (w.start + a)) o x (fun a => g.bytes (w.start + a)) := by
  cases h with
  | @read _ off len d h =>
    cases h with
    | goes ha hrd =>
      obtain ⟨rfl, h2⟩ := at_some hw (size := size) ha ho
      have h2 := h2.resolve_left hr
      obtain ⟨h3, h4⟩ := read_ok hK hrd
      refine ⟨h2, list_of_get h3 fun i hi => ?_, fun a ha => read_same hrd (hu a ha)⟩
      have := h4 i hi (by rw [Nat.add_assoc]; exact hu _ (by omega))
      rw [Nat.add_assoc] at this
      exact this
  | readFails h =>
    cases h with
    | refused => intro a _; rfl
    | goes ha hrd => intro a ha; exact read_same hrd (hu a ha)
  | @write _ off data h =>
    cases h with
    | goes ha hwr =>
      obtain ⟨rfl, h2⟩ := at_some hw (size := size) ha ho
      have h2 := h2.resolve_left hr
      exact ⟨h2, fun a ha => by
        show g.bytes (w.start + a) = _
        rw [(write_spec hK hwr (hu a ha)).1 rfl, over_shift]⟩
  | @writeFails _ off data h =>
    cases h with
    | refused => intro a _; exact Or.inl rfl
    | goes ha hwr =>
      obtain ⟨rfl, h2⟩ := at_some hw (size := size) ha ho
      intro a ha
      have := (write_spec hK hwr (hu a ha)).2
      rwa [over_shift] at this

/-- and leaves everything outside it alone -/
theorem call_other {K : Kernel} (hK : K.Sound) {oth : File → File → Prop} {k : Kind} {w : Win} (hw : w.Made) (hr : w ≠ .raw)
    {f g : File} {o : Op} {x : Ans} (h : Call K oth k w f o x g) (ho : o.Small) {size a : Nat} (hu : Untouched oth a)
    (ha : a < w.start ∨ w.start + w.len size ≤ a) : g.bytes a = f.bytes a := by
  have key : ∀ {off : Nat} {data : List Byte}, off + data.length ≤ w.len size →
      over f.bytes (w.start + off) data a = f.bytes a := by
    intro off data hle
    unfold over
    rw [if_neg (by omega)]
  cases h with
  | read h => cases h with | goes ha hrd => exact read_same hrd hu
  | readFails h =>
    cases h with
    | refused => rfl
    | goes ha hrd => exact read_same hrd hu
  | write h =>
    cases h with
    | goes ha hwr =>
      obtain ⟨rfl, h2⟩ := at_some hw (size := size) ha ho
      rw [(write_spec hK hwr hu).1 rfl, key (h2.resolve_left hr)]
  | writeFails h =>
    cases h with
    | refused => rfl
    | goes ha hwr =>
      obtain ⟨rfl, h2⟩ := at_some hw (size := size) ha ho
      rcases (write_spec hK hwr hu).2 with h | h
      · exact h
      · rw [h, key (h2.resolve_left hr)]

theorem does_congr {len : Nat} {d d1 d' : Nat → Byte} {o : Op} {x : Ans} (h : Does len d o x d')
    (hd : ∀ a < len, d1 a = d a) : Does len d1 o x d' := by
  cases o with
  | read off n =>
    cases x with
    | bytes y =>
      obtain ⟨h1, h2, h3⟩ := h
      refine ⟨h1, ?_, fun a ha => by rw [h3 a ha, hd a ha]⟩
      rw [h2]
      apply List.map_congr_left
      intro i hi
      rw [hd _ (by have := List.mem_range.mp hi; omega)]
    | done => exact h
    | failed => exact fun a ha => by rw [h a ha, hd a ha]
  | write off data =>
    cases x with
    | bytes y => exact h
    | done => exact ⟨h.1, fun a ha => by rw [h.2 a ha]; exact over_congr (hd a ha).symm⟩
    | failed =>
      intro a ha
      rcases h a ha with e | e
      · exact Or.inl (by rw [e, hd a ha])
      · exact Or.inr (by rw [e]; exact over_congr (hd a ha).symm)

theorem run_congr {len : Nat} {d d1 d' : Nat → Byte} {l : List (Op × Ans)} (h : DiskRun len d l d')
    (hd : ∀ a < len, d1 a = d a) : DiskRun len d1 l d' := by
  cases h with
  | nil h => exact .nil fun a ha => by rw [h a ha, hd a ha]
  | cons h1 h2 => exact .cons (does_congr h1 hd) h2

theorem history_run {K : Kernel} (hK : K.Sound) {oth : File → File → Prop} {k : Kind} {ws : Nat → Win}
    (hw : ∀ i, (ws i).Made ∧ ws i ≠ .raw) {size : Nat}
    (hd : ∀ i j, i ≠ j → (ws i).start + (ws i).len size ≤ (ws j).start ∨ (ws j).start + (ws j).len size ≤ (ws i).start)
    (hu : ∀ i, ∀ a < (ws i).len size, Untouched oth ((ws i).start + a)) {f g : File} {l : List (Nat × Op × Ans)}
    (h : History K oth k ws f l g) (hs : ∀ c ∈ l, c.2.1.Small) (i : Nat) :
    DiskRun ((ws i).len size) (fun a => f.bytes ((ws i).start + a))
      ((l.filter fun c => c.1 == i).map fun c => c.2) (fun a => g.bytes ((ws i).start + a)) := by
  induction h with
  | nil => exact .nil fun _ _ => rfl
  | @cons f g h j o x l hc _ ih =>
    have ih := ih fun c hc => hs c (List.mem_cons_of_mem _ hc)
    have ho : o.Small := hs (j, o, x) (List.mem_cons_self ..)
    by_cases hj : j = i
    · subst hj
      simp only [List.filter_cons, beq_self_eq_true, if_true, List.map_cons]
      exact .cons (call_own hK (hw j).1 (hw j).2 hc ho (hu j)) ih
    · have : (j == i) = false := by simp [hj]
      simp only [List.filter_cons, this]
      refine run_congr ih fun a ha => ?_
      refine (call_other hK (hw j).1 (hw j).2 hc ho (size := size) (hu i a ha) ?_).symm
      rcases hd i j (Ne.symm hj) with h | h <;> omega

end Dev
end Blobd
