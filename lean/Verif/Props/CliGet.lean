import Verif.Model.CliGet
import Verif.Props.Server
import Verif.Props.Wire
import Verif.Props.Cli
/-!
# C83: what `blobc get` prints
-/
set_option autoImplicit false
namespace Blobd
namespace Props
open Cli Http Server
open Direct (CCfg Obj)
open MP (Bytes)

/-- what the user asked for: from byte `start`, up to and including byte `stop` if given -/
def asked (D : Bytes) (start : Nat) : Option Nat → Bytes
  | none => D.drop start
  | some stop => (D.take (stop + 1)).drop start

/-! ### Copying the stream -/

/-- items handed over so far, in whatever order they were written -/
theorem copies_sets {may : Copy → Act → Prop} {items : List (Except Unit Bytes)} {s : Copy} (h : Copies may ⟨items, [], [], none⟩ s) :
    ∃ (cs l lost : List Bytes), s.out = l.flatten ∧ (l ++ s.pend ++ lost).Perm cs ∧
      (s.exit = none → items = cs.map .ok ++ s.rest) ∧ (s.exit = some true → items = cs.map .ok) ∧
      (s.exit = some false → items = cs.map .ok ++ .error () :: s.rest) := by
  induction h with
  | refl => exact ⟨[], [], [], rfl, .refl _, by simp, by simp, by simp⟩
  | tail _ hs _ ih =>
    obtain ⟨cs, l, lost, h1, h2, h3, h4, h5⟩ := ih
    cases hs with
    | @hand c r p o =>
      refine ⟨cs ++ [c], l, lost, h1, ?_, ?_, by simp, by simp⟩
      · simp only at h2 ⊢
        refine List.Perm.trans ?_ (List.Perm.append_right [c] h2)
        simp only [List.append_assoc]
        exact List.Perm.append_left l (List.Perm.append_left p List.perm_append_comm)
      · intro _; simpa using h3 rfl
    | broke => exact ⟨cs, l, lost, h1, h2, by simp, by simp, fun _ => h3 rfl⟩
    | finish => exact ⟨cs, l, lost, h1, h2, by simp, fun _ => by simpa using h3 rfl, by simp⟩
    | @write r a c b o e =>
      refine ⟨cs, l ++ [c], lost, by simp_all, ?_, h3, h4, h5⟩
      refine List.Perm.trans ?_ h2
      simp only [List.append_assoc]
      exact List.Perm.append_left l (by simpa using (List.perm_middle (l₁ := a) (a := c) (l₂ := b ++ lost)).symm)
    | @drop r a c b o e =>
      refine ⟨cs, l, c :: lost, h1, ?_, h3, h4, h5⟩
      refine List.Perm.trans ?_ h2
      simp only [List.append_assoc]
      refine List.Perm.append_left l (List.Perm.append_left a ?_)
      simpa using (List.perm_middle (l₁ := b) (a := c) (l₂ := lost))

/-- in turn: the chunks come out as they came in -/
theorem copies_turn {items : List (Except Unit Bytes)} {s : Copy} (h : Copies inTurn ⟨items, [], [], none⟩ s) :
    ∃ cs : List Bytes, s.out ++ s.pend.flatten = cs.flatten ∧ s.pend.length ≤ 1 ∧
      (s.exit = none → items = cs.map .ok ++ s.rest) ∧ (s.exit = some true → items = cs.map .ok) ∧
      (s.exit = some false → items = cs.map .ok ++ .error () :: s.rest) := by
  induction h with
  | refl => exact ⟨[], rfl, by simp, by simp, by simp, by simp⟩
  | tail _ hs hm ih =>
    obtain ⟨cs, h1, h2, h3, h4, h5⟩ := ih
    cases hs with
    | @hand c r p o =>
      simp only [inTurn] at hm
      subst hm
      refine ⟨cs ++ [c], by simpa using h1, by simp, ?_, by simp, by simp⟩
      intro _; simpa using h3 rfl
    | broke => exact ⟨cs, h1, h2, by simp, by simp, fun _ => h3 rfl⟩
    | finish => exact ⟨cs, h1, h2, by simp, fun _ => by simpa using h3 rfl, by simp⟩
    | @write r a c b o e =>
      simp only [List.length_append, List.length_cons] at h2
      have ha : a = [] := List.eq_nil_of_length_eq_zero (by omega)
      have hb : b = [] := List.eq_nil_of_length_eq_zero (by omega)
      subst ha hb
      exact ⟨cs, by simpa using h1, by simp, h3, h4, h5⟩
    | drop => exact absurd hm id

theorem map_ok_inj {a b : List Bytes} (h : a.map (Except.ok (ε := Unit)) = b.map .ok) : a = b :=
  (List.map_inj_right (fun _ _ h => Except.ok.inj h)).1 h

theorem ok_no_error {a b : List Bytes} {r : List (Except Unit Bytes)} : a.map .ok ≠ b.map .ok ++ .error () :: r := by
  intro h
  have : (Except.error () : Except Unit Bytes) ∈ a.map .ok := by rw [h]; simp
  simp at this

theorem ok_error_eq : ∀ {a b : List Bytes} {r : List (Except Unit Bytes)}, a.map .ok ++ [.error ()] = b.map .ok ++ .error () :: r → a = b
  | [], [], _, _ => rfl
  | [], _ :: _, _, h => by simp at h
  | _ :: _, [], _, h => by simp at h
  | _ :: a, _ :: b, _, h => by
    simp only [List.map_cons, List.cons_append, List.cons.injEq, Except.ok.injEq] at h
    rw [h.1, ok_error_eq h.2]

/-- **C83 (what the program does with an answer).** Written in turn: status 0 means standard output got exactly the body; otherwise it got a
beginning of it. However the thread pool behaves: with status 0 standard output got some of the chunks the body came in, each at most once and unchanged, in some order; a body that came in one
chunk is printed whole or not at all. -/
theorem C83_copies_partial {r : ReadResp} :
    (∀ {out ok}, Gets inTurn (.ok r) out ok → (ok = true → out = r.body) ∧ out <+: r.body) ∧
    (∀ {out}, Gets anyHow (.ok r) out true → ∃ cs l lost : List Bytes, cs.flatten = r.body ∧ (l ++ lost).Perm cs ∧ out = l.flatten) ∧
    (∀ {out rest b}, Copies anyHow ⟨[.ok b], [], [], none⟩ ⟨rest, [], out, some true⟩ → out = b ∨ out = []) ∧
    (∀ {may e out ok}, Gets may (.error e) out ok → out = [] ∧ ok = false) := by
  refine ⟨?_, ?_, ?_, ?_⟩
  · intro out ok h
    cases h with
    | copied hd hc =>
      obtain ⟨cs, h1, _, _, h4, h5⟩ := copies_turn hc
      simp only [List.flatten_nil, List.append_nil] at h1
      cases hd with
      | @all cs' he =>
        cases ok with
        | true =>
          have := map_ok_inj (h4 rfl)
          subst this
          exact ⟨fun _ => h1.trans he, by rw [h1, he]⟩
        | false => exact absurd (h5 rfl) ok_no_error
      | @broken cs' rest he =>
        cases ok with
        | true => exact absurd (h4 rfl).symm ok_no_error
        | false =>
          have := ok_error_eq (h5 rfl)
          subst this
          exact ⟨by simp, ⟨rest, by rw [h1]; exact he⟩⟩
  · intro out h
    cases h with
    | copied hd hc =>
      obtain ⟨cs, l, lost, h1, h2, _, h4, _⟩ := copies_sets hc
      simp only [List.append_nil] at h2
      cases hd with
      | @all cs' he =>
        have := map_ok_inj (h4 rfl)
        subst this
        exact ⟨_, l, lost, he, h2, h1⟩
      | @broken cs' rest he => exact absurd (h4 rfl).symm ok_no_error
  · intro out rest b hc
    obtain ⟨cs, l, lost, h1, h2, _, h4, _⟩ := copies_sets hc
    have : cs = [b] := (map_ok_inj (a := [b]) (h4 rfl)).symm
    subst this
    simp only [List.append_nil] at h2
    have hlen := h2.length_eq
    simp only [List.length_append, List.length_cons, List.length_nil] at hlen
    simp only at h1
    cases l with
    | nil => right; rw [h1]; rfl
    | cons y l =>
      simp only [List.length_cons] at hlen
      have : l = [] := List.eq_nil_of_length_eq_zero (by omega)
      subst this
      have : y ∈ [b] := h2.subset (by simp)
      simp only [List.mem_singleton] at this
      left; rw [h1, this]; simp
  · intro may e out ok h
    cases h; exact ⟨rfl, rfl⟩

/-! ### The answer -/

/-- the request asks for the range given, of the key given -/
theorem getAnswer_eq {c : CCfg} {S : Srv} {x : Site} {key : Bytes} (hkey : serverKey key = some key) (hne : key ≠ [])
    {sent now : Nat} (hs : sent + 300 < 2 ^ 64) (hn : now < sent + 300) {start : Nat} (ha : start < 2 ^ 64) {stop : Option Nat} (hb : ∀ v ∈ stop, v < 2 ^ 64) :
    getAnswer c S x sent now key start stop = (match c.owner key with
      | none => none
      | some i => match (x.s i).committed key with
        | none => some (.error 404)
        | some o => httpRead (c.part i).pages o.m.rw (x.s i).dev (some (rangeText (some start) stop))) := by
  have hr : clientRange (some start) stop = some (rangeText (some start) stop) := by cases stop <;> rfl
  unfold getAnswer
  rw [C79_rust_request S sent (.read key (some start) stop) key rfl trivial hkey hne]
  simp only [rustReq, hr]
  have hk : parseKey (urlPath (clientPath key)) = some key := hkey
  have hv : verifyAuth S now (clientToken S sent (.read key)) (.read key) = true := verifyAuth_new S hs hn
  have hst : ∃ st, rangeOf (reqRanges (some (rangeText (some start) stop))) = .ok (start, st) := by
    simp only [reqRanges, parseRanges_text (some start) stop (by simpa using ha) hb, rangeOf]
    exact ⟨_, rfl⟩
  obtain ⟨st, hst⟩ := hst
  unfold Site.get
  simp only [preflight, hk, hv, hst]
  rfl

theorem size_lt {pages : Pages} (hp : RW.PagesOk pages) {size : Nat} {lay : ObjectLayout} (h : calcObjectLayoutDirect pages size = some lay) : size < 2 ^ 64 := by
  unfold calcObjectLayoutDirect at h
  split at h
  · rename_i hl
    simp only [divModPow2, Nat.shiftRight_eq_div_pow] at hl
    have h1 : size < 2 ^ 32 * 2 ^ pages.lpage := (Nat.div_lt_iff_lt_mul (Nat.two_pow_pos _)).1 hl
    have h2 : 2 ^ pages.lpage ≤ 2 ^ 32 := Nat.pow_le_pow_right (by decide) (Nat.le_of_lt hp.lt32)
    have : 2 ^ 32 * 2 ^ pages.lpage ≤ 2 ^ 32 * 2 ^ 32 := Nat.mul_le_mul_left _ h2
    omega
  · cases h

/-- the range lies in an object of this size (it may be empty) -/
def InRange (size start : Nat) : Option Nat → Prop
  | none => start ≤ size
  | some stop => start ≤ stop + 1 ∧ stop + 1 ≤ size

/-- the endpoint's answer to the range of the command line -/
theorem httpRead_range {pages : Pages} (hp : RW.PagesOk pages) {o : RW.Obj} {dev : Mem} {lay : ObjectLayout}
    (hlay : calcObjectLayoutDirect pages o.size = some lay) {start : Nat} (ha : start < 2 ^ 64) {stop : Option Nat} (hb : ∀ v ∈ stop, v < 2 ^ 64 - 1) :
    (InRange o.size start stop → ∃ r, httpRead pages o dev (some (rangeText (some start) stop)) = some (.ok r) ∧
      r.contentRange.1 = start ∧ r.body = asked (RW.contents pages lay dev o) start stop) ∧
    (¬ InRange o.size start stop → httpRead pages o dev (some (rangeText (some start) stop)) = some (.error 416)) := by
  have h64 := size_lt hp hlay
  have hlen : (RW.contents pages lay dev o).length = o.size := by
    have hlay' : calcObjectLayout pages o.size = some lay := by
      unfold calcObjectLayoutDirect at hlay
      split at hlay
      · exact hlay
      · cases hlay
    obtain ⟨es, hli⟩ := RW.layInfo_of hp hlay'
    exact RW.contents_length hli dev
  obtain ⟨_, r2, r3⟩ := C44_refused pages o dev lay hlay
  obtain ⟨e1, e2⟩ := C44_violated_empty_range_accepted pages o dev lay hlay h64
  cases stop with
  | none =>
    simp only [InRange, asked]
    refine ⟨fun h => ?_, fun h => r3 start ha (by omega)⟩
    rcases Nat.lt_or_eq_of_le h with h | rfl
    · refine ⟨_, C44_open_range_exact pages hp o dev lay hlay start h h64, rfl, ?_⟩
      exact List.take_of_length_le (by rw [List.length_drop]; omega)
    · exact ⟨_, e1, rfl, (List.drop_eq_nil_of_le (by omega)).symm⟩
  | some b =>
    have hb := hb b rfl
    simp only [InRange, asked]
    refine ⟨fun h => ?_, fun h => r2 start b ha (by omega) (by omega)⟩
    rcases Nat.lt_or_eq_of_le h.1 with h1 | rfl
    · refine ⟨_, C44_bounded_range_exact pages hp o dev lay hlay start b (by omega) (by omega) h64, rfl, ?_⟩
      rw [List.drop_take]
    · exact ⟨_, e2 b (by omega), rfl, (List.drop_eq_nil_of_le (by rw [List.length_take]; omega)).symm⟩

/-- **C83 (the answer, exactly).** The key is visible with `size` bytes: a range within the object is answered with exactly the bytes asked for, any other
range is refused; the key is not visible: 404. For keys that reach the server unchanged (C50), handled within 300 seconds. -/
theorem C83_answer {c : CCfg} {S : Srv} (hc : COk c) (hn : c.n ≤ 2 ^ 64) (hS : ∀ i, i < c.n → S.pages = (c.part i).pages) {x : Site} (hx : Serves c S x)
    {key : Bytes} (hkey : serverKey key = some key) (hne : key ≠ []) {sent now : Nat} (hs : sent + 300 < 2 ^ 64) (hnow : now < sent + 300)
    {start : Nat} (ha : start < 2 ^ 64) {stop : Option Nat} (hb : ∀ v ∈ stop, v < 2 ^ 64 - 1) {i : Nat} (hi : c.owner key = some i) :
    ((x.s i).committed key = none → getAnswer c S x sent now key start stop = some (.error 404)) ∧
    ∀ o, (x.s i).committed key = some o → ∃ lay, calcObjectLayoutDirect (c.part i).pages o.m.size = some lay ∧
      (InRange o.m.size start stop → ∃ r, getAnswer c S x sent now key start stop = some (.ok r) ∧
        r.contentRange.1 = start ∧ r.body = asked (RW.contents (c.part i).pages lay (x.s i).dev o.m.rw) start stop) ∧
      (¬ InRange o.m.size start stop → getAnswer c S x sent now key start stop = some (.error 416)) := by
  have hg := getAnswer_eq (c := c) (S := S) (x := x) hkey hne hs hnow ha (stop := stop) (fun v hv => by have := hb v hv; omega)
  rw [hi] at hg
  refine ⟨fun h => by rw [hg]; simp only [h], fun o ho => ?_⟩
  simp only [ho] at hg
  have hlt := owner_lt hi
  have hinv := serves_inv hc hn hS hx i hlt
  have hF := calm_facts (hc i hlt) hinv.calm
  have hk : o.m.key = key := hF.id.comKey _ _ ho
  obtain ⟨mo, hnm⟩ := inUse_named hF (o := o) (Or.inl (by rw [hk]; exact ho))
  obtain ⟨lay, hlay, _, _⟩ : o.m.Shape (c.part i) := (Direct.reach_sh hF.reach).nm _ _ _ hnm
  rw [hg]
  exact ⟨lay, hlay, httpRead_range (o := o.m.rw) ⟨(hc i hlt).sl, (hc i hlt).l32, (hc i hlt).l24⟩ hlay ha hb⟩

/-- **C83 (what is printed).** Whatever happened at the server, and however the download goes, with the chunks written in turn: every byte
printed was uploaded for an object created for this key and committed, at the position `start` plus its place in the output (objects of several parts:
committed with their own upload token, see C72). -/
theorem C83_printed_uploaded_partial {c : CCfg} {S : Srv} (hc : COk c) (hn : c.n ≤ 2 ^ 64) (hS : ∀ i, i < c.n → S.pages = (c.part i).pages) {x : Site} (hx : Serves c S x)
    {key : Bytes} (hkey : serverKey key = some key) (hne : key ≠ []) {sent now : Nat} (hs : sent + 300 < 2 ^ 64) (hnow : now < sent + 300)
    {start : Nat} (ha : start < 2 ^ 64) {stop : Option Nat} (hb : ∀ v ∈ stop, v < 2 ^ 64 - 1)
    {ans : Except Nat ReadResp} (hans : getAnswer c S x sent now key start stop = some ans) {out : Bytes} {ok : Bool} (hg : Gets inTurn ans out ok) :
    (out = [] ∧ ok = false) ∨ ∃ i id size, c.owner key = some i ∧ .created ⟨id, i⟩ key size ∈ x.h ∧ (∃ k claimed, .committed ⟨id, i⟩ k claimed ∈ x.h) ∧
      ((∃ k, .committed ⟨id, i⟩ k size ∈ x.h) ∨ size ≤ 2 ^ (c.part i).pages.lpage →
        ∀ j b, out[j]? = some b → Uploaded (x.at i) id (start + j) b) := by
  cases ans with
  | error e => exact Or.inl (C83_copies_partial (r := ⟨0, 0, (0, 0, 0), []⟩).2.2.2 hg)
  | ok r =>
    right
    have hge := getAnswer_eq (c := c) (S := S) (x := x) hkey hne hs hnow ha (stop := stop) (fun v hv => by have := hb v hv; omega)
    rw [hans] at hge
    cases hi : c.owner key with
    | none => rw [hi] at hge; cases hge
    | some i =>
      simp only [hi] at hge
      cases ho : (x.s i).committed key with
      | none => rw [ho] at hge; cases hge
      | some o =>
        simp only [ho] at hge
        have hlt := owner_lt hi
        have hinv := serves_inv hc hn hS hx i hlt
        have hk : o.m.key = key := (calm_facts (hc i hlt) hinv.calm).id.comKey _ _ ho
        obtain ⟨id, _, g1, g3, g4⟩ := C72_read_partial hc hn hS hx hlt (o := o) (Or.inl (by rw [hk]; exact ho))
        rw [hk] at g1
        refine ⟨i, id, _, rfl, g1, g3, fun hcl j b hj => ?_⟩
        obtain ⟨lay, _, hin, hout⟩ := (C83_answer hc hn hS hx hkey hne hs hnow ha hb hi).2 o ho
        have hst : r.contentRange.1 = start := by
          by_cases hr : InRange o.m.size start stop
          · obtain ⟨r', e1, e2, _⟩ := hin hr
            rw [hans] at e1
            cases e1
            exact e2
          · have := hout hr
            rw [hans] at this
            cases this
        obtain ⟨t, ht⟩ := (C83_copies_partial.1 hg).2
        have := g4 hcl _ r hge.symm j b (by
          rw [← ht, List.getElem?_append_left (List.getElem?_eq_some_iff.1 hj).1]; exact hj)
        rwa [hst] at this

/-- **C83 (round trip).** If every upload ever begun for the key was an upload of `D` (as in C72_round_trip_partial) and the chunks are written in turn, then
`blobc get` prints exactly the bytes of `D` asked for, or ends with an error having printed a beginning of them. -/
theorem C83_round_trip_partial {c : CCfg} {S : Srv} (hc : COk c) (hn : c.n ≤ 2 ^ 64) (hS : ∀ i, i < c.n → S.pages = (c.part i).pages) {x : Site} (hx : Serves c S x)
    {D key : Bytes}
    (hD : ∀ id i size, .created ⟨id, i⟩ key size ∈ x.h → D.length = size ∧
      (∀ k claimed, .committed ⟨id, i⟩ k claimed ∈ x.h → claimed = size ∨ size ≤ 2 ^ (c.part i).pages.lpage) ∧
      ∀ off body, (id, off, body) ∈ x.sent i → ∀ j b, (received body)[j]? = some b → D[off + j]? = some b)
    (hkey : serverKey key = some key) (hne : key ≠ []) {sent now : Nat} (hs : sent + 300 < 2 ^ 64) (hnow : now < sent + 300)
    {start : Nat} (ha : start < 2 ^ 64) {stop : Option Nat} (hb : ∀ v ∈ stop, v < 2 ^ 64 - 1)
    {ans : Except Nat ReadResp} (hans : getAnswer c S x sent now key start stop = some ans) {out : Bytes} {ok : Bool} (hg : Gets inTurn ans out ok) :
    (ok = true → out = asked D start stop ∧ InRange D.length start stop) ∧ out <+: asked D start stop := by
  cases ans with
  | error e =>
    obtain ⟨rfl, rfl⟩ := (C83_copies_partial (r := ⟨0, 0, (0, 0, 0), []⟩)).2.2.2 hg
    exact ⟨by simp, List.nil_prefix⟩
  | ok r =>
    have hge := getAnswer_eq (c := c) (S := S) (x := x) hkey hne hs hnow ha (stop := stop) (fun v hv => by have := hb v hv; omega)
    rw [hans] at hge
    cases hi : c.owner key with
    | none => rw [hi] at hge; cases hge
    | some i =>
      simp only [hi] at hge
      cases ho : (x.s i).committed key with
      | none => rw [ho] at hge; cases hge
      | some o =>
        have hlt := owner_lt hi
        have hinv := serves_inv hc hn hS hx i hlt
        have hk : o.m.key = key := (calm_facts (hc i hlt) hinv.calm).id.comKey _ _ ho
        obtain ⟨id, _, g1, ⟨k', claimed, g2⟩, g3⟩ := C72_every_byte_uploaded_partial hc hn hS hx hlt (o := o) (Or.inl (by rw [hk]; exact ho))
        rw [hk] at g1
        obtain ⟨d1, d2, d3⟩ := hD id i _ g1
        have hcl : (∃ k, .committed ⟨id, i⟩ k o.m.size ∈ x.h) ∨ o.m.size ≤ 2 ^ (c.part i).pages.lpage := by
          rcases d2 k' claimed g2 with h | h
          · exact Or.inl ⟨k', h ▸ g2⟩
          · exact Or.inr h
        obtain ⟨lay, hlay, hin, hout⟩ := (C83_answer hc hn hS hx hkey hne hs hnow ha hb hi).2 o ho
        have hcon : RW.contents (c.part i).pages lay (x.s i).dev o.m.rw = D := by
          apply List.ext_getElem?
          intro j
          by_cases hj : j < o.m.size
          · obtain ⟨b, g4, off, body, g5, g6, g7⟩ := g3 hcl lay hlay j hj
            rw [g4, ← d3 off body g5 (j - off) b g7]
            congr 1; omega
          · rw [List.getElem?_eq_none (by simp only [RW.contents, List.length_take, Direct.Meta.rw]; omega), List.getElem?_eq_none (by omega)]
        by_cases hr : InRange o.m.size start stop
        · obtain ⟨r', e1, _, e3⟩ := hin hr
          rw [hans] at e1
          cases e1
          obtain ⟨p1, p2⟩ := C83_copies_partial.1 hg
          rw [hcon] at e3
          rw [e3] at p1 p2
          exact ⟨fun h => ⟨p1 h, by rw [d1]; exact hr⟩, p2⟩
        · have := hout hr
          rw [hans] at this
          cases this

/-- every upload ever begun for the key at the server was one of `blobc put` for this file: created with its size, tiles sent at their offsets — any
number of times, in any order, broken off anywhere — and committed, if at all, with the upload token that create returned -/
structure PutOnly (x : Site) (key file : Bytes) : Prop where
  size : ∀ id i n, .created ⟨id, i⟩ key n ∈ x.h → putCreate key file = .create key n
  token : ∀ id i n k claimed, .created ⟨id, i⟩ key n ∈ x.h → .committed ⟨id, i⟩ k claimed ∈ x.h → claimed = n
  tiles : ∀ id i n off body, .created ⟨id, i⟩ key n ∈ x.h → (id, off, body) ∈ x.sent i →
    ∃ j tile, off = putOffset j ∧ (putChunks file)[j]? = some tile ∧ received body <+: tile

/-- **C83 (put, then get).** If the key was only ever uploaded with `blobc put` of `file` — several times over, interleaved with anything else, with crashes and
broken connections — then `blobc get` prints the bytes of `file` asked for, or ends with an error after a beginning of them (chunks written in turn). -/
theorem C83_put_then_get_partial {c : CCfg} {S : Srv} (hc : COk c) (hn : c.n ≤ 2 ^ 64) (hS : ∀ i, i < c.n → S.pages = (c.part i).pages) {x : Site} (hx : Serves c S x)
    {file key : Bytes} (hput : PutOnly x key file)
    (hkey : serverKey key = some key) (hne : key ≠ []) {sent now : Nat} (hs : sent + 300 < 2 ^ 64) (hnow : now < sent + 300)
    {start : Nat} (ha : start < 2 ^ 64) {stop : Option Nat} (hb : ∀ v ∈ stop, v < 2 ^ 64 - 1)
    {ans : Except Nat ReadResp} (hans : getAnswer c S x sent now key start stop = some ans) {out : Bytes} {ok : Bool} (hg : Gets inTurn ans out ok) :
    (ok = true → out = asked file start stop ∧ InRange file.length start stop) ∧ out <+: asked file start stop := by
  refine C83_round_trip_partial hc hn hS hx (D := file) (fun id i size hcr => ⟨?_, ?_, ?_⟩) hkey hne hs hnow ha hb hans hg
  · have := hput.size id i size hcr
    simp only [putCreate, ClientCall.create.injEq, true_and] at this
    exact this
  · intro k claimed hcm
    exact Or.inl (hput.token id i size k claimed hcr hcm)
  · intro off body hm j b hj
    obtain ⟨n, tile, rfl, htl, t, rfl⟩ := hput.tiles id i size off body hcr hm
    simp only [putChunks, List.getElem?_map, List.getElem?_range', Option.map_eq_some_iff] at htl
    obtain ⟨n', hn', htl⟩ := htl
    obtain ⟨hlt, rfl⟩ := List.getElem?_eq_some_iff.1 hn'
    simp only [List.getElem_range] at htl
    have h1 : ((file.drop (n * tileSize)).take tileSize)[j]? = some b := by
      rw [htl, List.getElem?_append_left (List.getElem?_eq_some_iff.1 hj).1]; exact hj
    have hjl : j < tileSize := by
      have := (List.getElem?_eq_some_iff.1 h1).1
      rw [List.length_take] at this
      omega
    rw [List.getElem?_take_of_lt hjl, List.getElem?_drop] at h1
    exact h1

/-- the rule is met by the run `wHonest` for its key "b" (one tile of 128 bytes), and the object can be read -/
example : ∃ x, Serves wclu wSrv x ∧ PutOnly x [98] (List.replicate 128 9) ∧ .created ⟨5, 0⟩ [98] 128 ∈ x.h ∧ ((x.s 0).committed [98]).isSome = true := by
  have h : (wsite wHonest).map (fun x =>
      x.h.all (fun e => match e with
        | .created tok k size => decide (k = [98] → tok.id = 5 ∧ tok.part = 0 ∧ size = 128)
        | .committed tok _ claimed => decide (tok.id = 5 ∧ tok.part = 0 → claimed = 128)
        | _ => true) &&
      ((x.sent 0).all (fun y => decide (y.1 = 5) && decide (y.2.1 = 0 ∧ received y.2.2 = List.replicate 128 9)) &&
      (decide (.created ⟨5, 0⟩ [98] 128 ∈ x.h) && ((x.s 0).committed [98]).isSome))) = some true := by
    decide +kernel
  obtain ⟨x, h1, h⟩ := Option.map_eq_some_iff.1 h
  simp only [Bool.and_eq_true, decide_eq_true_eq, List.all_eq_true] at h
  obtain ⟨e1, e2, e3, e4⟩ := h
  have hcr : ∀ {id i n}, .created ⟨id, i⟩ [98] n ∈ x.h → id = 5 ∧ i = 0 ∧ n = 128 := by
    intro id i n hm
    have := e1 _ hm
    simp only [decide_eq_true_eq] at this
    exact this trivial
  refine ⟨x, wsite_ok h1, ⟨?_, ?_, ?_⟩, e3, e4⟩
  · intro id i n hm
    obtain ⟨rfl, rfl, rfl⟩ := hcr hm
    simp [putCreate]
  · intro id i n k claimed hm hcm
    obtain ⟨rfl, rfl, rfl⟩ := hcr hm
    have := e1 _ hcm
    simp only [decide_eq_true_eq] at this
    exact this ⟨trivial, trivial⟩
  · intro id i n off body hm hsn
    obtain ⟨rfl, rfl, rfl⟩ := hcr hm
    obtain ⟨_, h2, h3⟩ := e2 _ hsn
    simp only at h2 h3
    refine ⟨0, List.replicate 128 9, by rw [h2]; rfl, by decide +kernel, by rw [h3]⟩

/-! ### Where the code falls short -/

/-- **C83 is violated by the way standard output is written**, whatever the answer: with status 0 and nothing said, the program may have printed
nothing at all (the last writes are never waited for), or two parts of the body the wrong way round (each chunk has its own handle). -/
theorem C83_violated_output (r : ReadResp) :
    (r.body ≠ [] → Gets anyHow (.ok r) [] true) ∧ ∀ a b, r.body = a ++ b → Gets anyHow (.ok r) (b ++ a) true := by
  constructor
  · intro _
    refine .copied (rest := []) (.all (cs := [r.body]) (by simp)) ?_
    refine .tail (.tail (.tail .refl .hand trivial) .finish trivial) (?_ : CopyStep _ .drop _) trivial
    exact CopyStep.drop (a := []) (b := [])
  · intro a b h
    refine .copied (rest := []) (.all (cs := [a, b]) (by simp [h])) ?_
    refine .tail (.tail (.tail (.tail (.tail .refl .hand trivial) .hand trivial) (?_ : CopyStep _ .write ⟨[], [a], b, none⟩) trivial) .finish trivial)
      (?_ : CopyStep _ .write _) trivial
    · exact CopyStep.write (a := [a]) (b := []) (o := [])
    · exact CopyStep.write (a := []) (b := []) (o := b)

/-- **`--end` is not the end of what is printed** ("Offset in data to fetch to"; everywhere else in blobd an end is exclusive): `--end e` prints byte `e` too, the object's own size is
refused, and the largest number is taken for 0: nothing is printed, with status 0. -/
theorem C83_violated_end {c : CCfg} {S : Srv} (hc : COk c) (hn : c.n ≤ 2 ^ 64) (hS : ∀ i, i < c.n → S.pages = (c.part i).pages) {x : Site} (hx : Serves c S x)
    {key : Bytes} (hkey : serverKey key = some key) (hne : key ≠ []) {sent now : Nat} (hs : sent + 300 < 2 ^ 64) (hnow : now < sent + 300)
    {i : Nat} (hi : c.owner key = some i) {o : Obj} (ho : (x.s i).committed key = some o) :
    (∀ e, e < o.m.size → ∃ r, getAnswer c S x sent now key 0 (some e) = some (.ok r) ∧ r.body.length = e + 1) ∧
    getAnswer c S x sent now key 0 (some o.m.size) = some (.error 416) ∧
    ∃ r, getAnswer c S x sent now key 0 (some (2 ^ 64 - 1)) = some (.ok r) ∧ r.body = [] := by
  have hlt := owner_lt hi
  have hp : RW.PagesOk (c.part i).pages := ⟨(hc i hlt).sl, (hc i hlt).l32, (hc i hlt).l24⟩
  obtain ⟨lay, hlay, _, _⟩ := (C83_answer hc hn hS hx hkey hne hs hnow (start := 0) (by decide) (stop := none) (by simp) hi).2 o ho
  have h64 := size_lt hp hlay
  have hl32 : o.m.size < 2 ^ 64 - 1 := by
    unfold calcObjectLayoutDirect at hlay
    split at hlay
    · rename_i hl
      simp only [divModPow2, Nat.shiftRight_eq_div_pow] at hl
      have h1 : o.m.size < 2 ^ 32 * 2 ^ (c.part i).pages.lpage := (Nat.div_lt_iff_lt_mul (Nat.two_pow_pos _)).1 hl
      have h2 : 2 ^ (c.part i).pages.lpage ≤ 2 ^ 31 := Nat.pow_le_pow_right (by decide) (by have := hp.lt32; omega)
      have : 2 ^ 32 * 2 ^ (c.part i).pages.lpage ≤ 2 ^ 32 * 2 ^ 31 := Nat.mul_le_mul_left _ h2
      omega
    · cases hlay
  refine ⟨fun e he => ?_, ?_, ?_⟩
  · obtain ⟨lay', hlay', hin, _⟩ := (C83_answer hc hn hS hx hkey hne hs hnow (start := 0) (by decide) (stop := some e) (by simp; omega) hi).2 o ho
    obtain ⟨r, h1, _, h3⟩ := hin ⟨by omega, by omega⟩
    refine ⟨r, h1, ?_⟩
    have hcl : calcObjectLayout (c.part i).pages o.m.rw.size = some lay' := by
      unfold calcObjectLayoutDirect at hlay'
      split at hlay'
      · exact hlay'
      · cases hlay'
    obtain ⟨es, hli⟩ := RW.layInfo_of hp hcl
    have : (RW.contents (c.part i).pages lay' (x.s i).dev o.m.rw).length = o.m.size := RW.contents_length hli (x.s i).dev
    rw [h3]
    simp only [asked, List.drop_zero, List.length_take, this]
    omega
  · exact ((C83_answer hc hn hS hx hkey hne hs hnow (start := 0) (by decide) (stop := some o.m.size) (by simp; omega) hi).2 o ho).elim
      fun _ h => h.2.2 (by simp only [InRange]; omega)
  · have hg := getAnswer_eq (c := c) (S := S) (x := x) hkey hne hs hnow (start := 0) (by decide) (stop := some (2 ^ 64 - 1)) (by simp)
    simp only [hi, ho] at hg
    rw [hg]
    exact ⟨_, C44_violated_last_byte_overflow (c.part i).pages o.m.rw (x.s i).dev lay hlay, rfl⟩

/-! ### Runs -/

theorem serverKey_a : serverKey [97] = some [97] :=
  (C50_rust_survives_iff _).2 ⟨by decide, by decide, by decide, by decide, by decide, by rw [← pctDecode_eq_iff]; simp [pctDecode]⟩

/-- hypotheses met: the run `wHonest` (two partitions, a crash during an upload, an upload in two parts), then `blobc get a --start 100 --end 199`: the answer is the range asked for, written in
turn it is printed; but the program may also print the end before the beginning -/
example : ∃ x, COk wclu ∧ wclu.n ≤ 2 ^ 64 ∧ (∀ i, i < wclu.n → wSrv.pages = (wclu.part i).pages) ∧ Serves wclu wSrv x ∧
    (∀ id i size, .created ⟨id, i⟩ [97] size ∈ x.h → (List.replicate 128 (1 : Byte) ++ List.replicate 128 7).length = size ∧
      (∀ key claimed, .committed ⟨id, i⟩ key claimed ∈ x.h → claimed = size ∨ size ≤ 2 ^ (wclu.part i).pages.lpage) ∧
      ∀ off body, (id, off, body) ∈ x.sent i → ∀ j b, (received body)[j]? = some b → (List.replicate 128 (1 : Byte) ++ List.replicate 128 7)[off + j]? = some b) ∧
    serverKey [97] = some [97] ∧ ∃ ans, getAnswer wclu wSrv x 0 5 [97] 100 (some 199) = some ans ∧
      Gets inTurn ans (List.replicate 28 1 ++ List.replicate 72 7) true ∧ Gets anyHow ans (List.replicate 72 7 ++ List.replicate 28 1) true ∧
      Gets anyHow ans [] true := by
  have h : (wsite wHonest).map (fun x =>
      x.h.all (fun e => match e with
        | .created tok k size => decide (k = [97] → tok.id = 5 ∧ tok.part = 1 ∧ size = 256)
        | .committed tok _ claimed => decide (tok.id = 5 ∧ tok.part = 1 → claimed = 256)
        | _ => true) &&
      ((x.sent 1).all (fun y => decide (y.1 = 5) && (List.range (received y.2.2).length).all (fun j =>
        decide ((List.replicate 128 (1 : Byte) ++ List.replicate 128 7)[y.2.1 + j]? = (received y.2.2)[j]?))) &&
      (match (x.s 1).committed [97] with
        | some o => (match httpRead (wclu.part 1).pages o.m.rw (x.s 1).dev (some (rangeText (some 100) (some 199))) with
          | some (.ok r) => decide (r.body = List.replicate 28 1 ++ List.replicate 72 7)
          | _ => false)
        | none => false))) = some true := by
    decide +kernel
  obtain ⟨x, h1, h⟩ := Option.map_eq_some_iff.1 h
  simp only [Bool.and_eq_true, decide_eq_true_eq, List.all_eq_true, List.mem_range] at h
  obtain ⟨e1, e2, e3⟩ := h
  refine ⟨x, wclu_ok.1, wclu_ok.2.1, wclu_ok.2.2, wsite_ok h1, ?_, serverKey_a, ?_⟩
  · intro id i size hm
    have := e1 _ hm
    simp only [decide_eq_true_eq] at this
    obtain ⟨rfl, rfl, rfl⟩ := this trivial
    refine ⟨by decide +kernel, ?_, ?_⟩
    · intro key claimed hm
      have := e1 _ hm
      simp only [decide_eq_true_eq] at this
      exact Or.inl (this ⟨trivial, trivial⟩)
    · intro off body hm j b hb
      have := (e2 _ hm).2 j (List.getElem?_eq_some_iff.1 hb).1
      simp only at this
      rw [this]; exact hb
  · have hg := getAnswer_eq (c := wclu) (S := wSrv) (x := x) serverKey_a (by decide) (sent := 0) (now := 5) (by decide) (by decide)
      (start := 100) (by decide) (stop := some 199) (by simp)
    have how : wclu.owner [97] = some 1 := by decide +kernel
    cases ho : (x.s 1).committed [97] with
    | none => rw [ho] at e3; cases e3
    | some o =>
      simp only [ho] at e3
      simp only [how, ho] at hg
      split at e3 <;> [rename_i r hr; cases e3]
      simp only [decide_eq_true_eq] at e3
      rw [hr] at hg
      refine ⟨_, hg, ?_, (C83_violated_output r).2 _ _ e3, (C83_violated_output r).1 (by rw [e3]; simp)⟩
      refine .copied (rest := []) (.all (cs := [r.body]) (by simp)) ?_
      rw [← e3]
      refine .tail (.tail (.tail .refl .hand rfl) .finish trivial) (?_ : CopyStep _ .write _) trivial
      exact CopyStep.write (a := []) (b := []) (o := [])

end Props
end Blobd
