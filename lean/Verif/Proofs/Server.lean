import Verif.Spec.Server
import Verif.Proofs.ServerStore
import Verif.Props.Http
/-! The invariant of the whole server. -/
set_option autoImplicit false
namespace Blobd
namespace Server
open Direct Props
open MP (Bytes)

variable {c : SCfg} {S : Http.Srv} {part : Nat}

/-! ## Pages of a part -/

theorem fit_get {ts pp : List (Nat × Nat)} (h : RW.Fit ts pp) : ∀ {i amt off : Nat}, ts[i]? = some (amt, off) →
    ∃ e, pp[i]? = some (off, e) ∧ amt ≤ 2 ^ e ∧ RW.amtSum (ts.take i) = RW.psum (pp.take i) ∧
      RW.amtSum (ts.take (i + 1)) = RW.amtSum (ts.take i) + amt ∧ RW.psum (pp.take (i + 1)) = RW.psum (pp.take i) + 2 ^ e ∧
      (amt = 2 ^ e ∨ i + 1 = ts.length ∧ i + 1 = pp.length) := by
  induction h with
  | nil => intro i amt off h; simp at h
  | @last amt' off' e h0 hle =>
    intro i amt off h
    cases i with
    | zero =>
      simp only [List.getElem?_cons_zero, Option.some.injEq, Prod.mk.injEq] at h
      obtain ⟨rfl, rfl⟩ := h
      exact ⟨e, by simp, hle, by simp [RW.amtSum, RW.psum], by simp [RW.amtSum], by simp [RW.psum], Or.inr (by simp)⟩
    | succ i => simp at h
  | @cons off' e ts pp hf ih =>
    intro i amt off h
    cases i with
    | zero =>
      simp only [List.getElem?_cons_zero, Option.some.injEq, Prod.mk.injEq] at h
      obtain ⟨rfl, rfl⟩ := h
      exact ⟨e, by simp, Nat.le_refl _, by simp [RW.amtSum, RW.psum], by simp [RW.amtSum], by simp [RW.psum], Or.inl rfl⟩
    | succ i =>
      simp only [List.getElem?_cons_succ] at h
      obtain ⟨e', h1, h2, h3, h4, h5, h6⟩ := ih h
      refine ⟨e', by simpa using h1, h2, ?_, ?_, ?_, ?_⟩
      · simp only [List.take_succ_cons, RW.amtSum_cons, RW.psum_cons, h3]
      · rw [List.take_succ_cons, RW.amtSum_cons, h4, List.take_succ_cons, RW.amtSum_cons]; omega
      · rw [List.take_succ_cons, RW.psum_cons, h5, List.take_succ_cons, RW.psum_cons]; omega
      · exact h6.imp_right (fun h => by simp only [List.length_cons]; omega)

theorem fit_len {ts pp : List (Nat × Nat)} (h : RW.Fit ts pp) : ts.length = pp.length := by
  induction h with
  | nil => rfl
  | last => rfl
  | cons _ ih => simp [ih]

theorem placed_at {l : List (Nat × Nat)} : ∀ {i pos0 off e : Nat}, l[i]? = some (off, e) →
    (pos0 + RW.psum (l.take i), off, e) ∈ placed pos0 l := by
  induction l with
  | nil => intro i _ _ _ h; simp at h
  | cons q l ih =>
    intro i pos0 off e h
    obtain ⟨o', e'⟩ := q
    cases i with
    | zero =>
      simp only [List.getElem?_cons_zero, Option.some.injEq, Prod.mk.injEq] at h
      obtain ⟨rfl, rfl⟩ := h
      simp [placed, RW.psum]
    | succ i =>
      simp only [List.getElem?_cons_succ] at h
      have := ih (pos0 := pos0 + 2 ^ e') h
      simp only [placed, List.take_succ_cons, RW.psum_cons, List.mem_cons]
      right
      rwa [Nat.add_assoc] at this

theorem placed_idx {l : List (Nat × Nat)} : ∀ {pos0 pos off e : Nat}, (pos, off, e) ∈ placed pos0 l →
    ∃ i, l[i]? = some (off, e) ∧ pos = pos0 + RW.psum (l.take i) := by
  induction l with
  | nil => intro _ _ _ _ h; cases h
  | cons q l ih =>
    intro pos0 pos off e h
    obtain ⟨o', e'⟩ := q
    simp only [placed, List.mem_cons, Prod.mk.injEq] at h
    rcases h with ⟨rfl, rfl, rfl⟩ | h
    · exact ⟨0, by simp, by simp [RW.psum]⟩
    · obtain ⟨i, h1, h2⟩ := ih h
      exact ⟨i + 1, by simpa using h1, by rw [h2, List.take_succ_cons, RW.psum_cons]; simp only; omega⟩

theorem placed_uniq {l : List (Nat × Nat)} (hn : (l.map (·.1)).Nodup) {pos0 pos pos' off e e' : Nat}
    (h : (pos, off, e) ∈ placed pos0 l) (h' : (pos', off, e') ∈ placed pos0 l) : pos = pos' ∧ e = e' := by
  obtain ⟨i, h1, h2⟩ := placed_idx h
  obtain ⟨i', h1', h2'⟩ := placed_idx h'
  have : i = i' := by
    obtain ⟨hi, e1⟩ := List.getElem?_eq_some_iff.1 h1
    obtain ⟨hi', e1'⟩ := List.getElem?_eq_some_iff.1 h1'
    refine (List.Nodup.getElem_inj_iff hn (hi := by simpa using hi) (hj := by simpa using hi')).1 ?_
    simp [e1, e1']
  subst this
  rw [h1] at h1'
  simp only [Option.some.injEq, Prod.mk.injEq, true_and] at h1'
  exact ⟨by rw [h2, h2'], h1'⟩

/-! ## The invariant -/

/-- the upload is there, or an object that came from it is -/
def Alive (w : World) (id : Nat) : Prop := TokOk w.s id ∨ ∃ v m, w.origin v = some id ∧ InUse w.s ⟨v, m⟩

/-- every byte of the page that belongs to the object was uploaded as this byte -/
def PageGood (w : World) (id size pos off e : Nat) : Prop :=
  ∀ j, j < 2 ^ e → pos + j < size → Uploaded w id (pos + j) (w.s.dev (off + j))

/-- all pages of the part at `off` are good, as long as the upload or its object is there -/
def PartGood (c : SCfg) (w : World) (id off : Nat) : Prop :=
  Alive w id → ∀ mo m, w.s.names id = some (mo, m) → ∀ pos poff e, (pos, poff, e) ∈ placed 0 (m.dataPages c.pages) →
    off ≤ pos → pos < off + 2 ^ c.pages.lpage → PageGood w id m.size pos poff e

/-- what a device write puts on a page was uploaded for this page -/
def WriterOk (c : SCfg) (w : World) (x : Writer) : Prop :=
  ∀ mo m, w.s.names x.id = some (mo, m) → ∀ pos e, (pos, x.off, e) ∈ placed 0 (m.dataPages c.pages) →
    ∀ j b, j < 2 ^ e → pos + j < m.size → x.data[j]? = some b → Uploaded w x.id (pos + j) b

structure PutOk (c : SCfg) (S : Http.Srv) (part : Nat) (w : World) (p : Put) : Prop where
  named : NamedO w.s.names p.o
  created : ∃ k, .created ⟨p.o.id, part⟩ k p.o.m.size ∈ w.h
  unf : Http.Unforged S w.h p.req
  pre : Http.preflight S p.now p.req = .ok (.write ⟨p.o.id, part⟩ p.off p.len p.body)
  off64 : p.off < 2 ^ 64
  chk : RW.writeCheck c.pages p.o.m.size p.off p.len = none
  lay : calcObjectLayoutDirect c.pages p.o.m.size = some p.lay
  sent : (p.o.id, p.off, p.body) ∈ w.sent
  data : (received p.body).drop p.written = p.buf ++ received p.stream
  len : p.written ≤ (received p.body).length
  idx : p.idx ≤ (p.targets c).length
  wr : p.written = RW.amtSum ((p.targets c).take p.idx)
  busy : ∀ d, p.busy = some d → ∃ junk amt poff, (p.targets c)[p.idx]? = some (amt, poff) ∧ amt ≤ p.buf.length ∧
    d = RW.blockDirect c.pages junk (p.buf.take amt)
  good : Alive w p.o.id → ∀ i, i < p.idx → ∀ poff e, (RW.partPages c.pages p.lay p.o.m.rw p.off)[i]? = some (poff, e) →
    PageGood w p.o.id p.o.m.size (p.off + RW.psum ((RW.partPages c.pages p.lay p.o.m.rw p.off).take i)) poff e

structure Inv (c : SCfg) (S : Http.Srv) (part : Nat) (w : World) : Prop where
  calm : Calm c w.s
  exec : Http.Exec S w.h
  made : ∀ tok k sz, .created tok k sz ∈ w.h → tok.part = part → Past w.s tok.id ∧ ∃ mo m, w.s.names tok.id = some (mo, m) ∧ m.key = k ∧ m.size = sz
  puts : ∀ p ∈ w.puts, PutOk c S part w p
  wrs : ∀ x ∈ w.s.writers, WriterOk c w x
  ack : ∀ tok off len, .acked tok off len ∈ w.h → tok.part = part → PartGood c w tok.id off
  clm : ∀ o, Holds w.s o → ∃ key claimed, .committed ⟨o.id, part⟩ key claimed ∈ w.h
  org : ∀ v id, w.origin v = some id → w.s.names v = w.s.names id ∧ ∃ key claimed, .committed ⟨id, part⟩ key claimed ∈ w.h
  vis : ∀ o, InUse w.s o → w.origin o.id ≠ none

/-- a committed upload was created -/
theorem committed_created {h : List Http.Ev} (hx : Http.Exec S h) : ∀ {tok : Http.Tok} {key : Bytes} {claimed : Nat},
    Http.Ev.committed tok key claimed ∈ h → ∃ k sz, Http.Ev.created tok k sz ∈ h := by
  induction hx with
  | nil => intro _ _ _ h; cases h
  | commit _ _ _ hc _ _ ih =>
    intro tok key claimed hm
    rcases List.mem_cons.1 hm with hm | hm
    · simp only [Http.Ev.committed.injEq] at hm
      obtain ⟨rfl, _, _⟩ := hm
      exact ⟨_, _, List.mem_cons_of_mem _ hc⟩
    · obtain ⟨k, sz, h⟩ := ih hm
      exact ⟨k, sz, List.mem_cons_of_mem _ h⟩
  | _ =>
    rename_i ih
    intro tok key claimed hm
    simp only [List.mem_cons, reduceCtorEq, false_or] at hm
    obtain ⟨k, sz, h⟩ := ih hm
    exact ⟨k, sz, List.mem_cons_of_mem _ h⟩

theorem Inv.org_past {w : World} (hi : Inv c S part w) {v id : Nat} (h : w.origin v = some id) : Past w.s id := by
  obtain ⟨_, key, claimed, h⟩ := hi.org v id h
  obtain ⟨k, sz, h⟩ := committed_created hi.exec h
  exact (hi.made _ _ _ h rfl).1

theorem unforged_mono {h h' : List Http.Ev} (hh : ∀ e ∈ h, e ∈ h') {req : Http.Req} (hu : Http.Unforged S h req) : Http.Unforged S h' req := by
  have hr : ∀ m, Http.released S.pages h m → Http.released S.pages h' m := fun m ⟨e, he, hm⟩ => ⟨e, hh e he, hm⟩
  exact ⟨fun a raw h1 h2 h3 => hr _ (hu.auth a raw h1 h2 h3),
    fun path up rc t raw off len body h1 h2 h3 => hr _ (hu.upload path up rc t raw off len body h1 h2 h3),
    fun path up rc t tok claimed part r m h1 h2 h3 h4 h5 => hr _ (hu.receipts path up rc t tok claimed part r m h1 h2 h3 h4 h5)⟩

/-- a parsed upload token is one of a created object -/
theorem upload_created {h : List Http.Ev} (hx : Http.Exec S h) {up : List Char} {tok : Http.Tok} {n : Nat}
    (hp : Http.parseUpload S up = some (tok, n))
    (hu : ∀ raw, S.b64.dec up = some raw → S.mac (raw.drop 32) = raw.take 32 → Http.released S.pages h (raw.drop 32)) :
    ∃ k sz, Http.Ev.created tok k sz ∈ h := by
  have hi := Http.exec_inv hx
  obtain ⟨h1, h2, h3⟩ := Http.parseUpload_released hi hp hu
  rcases Http.released_pair hi h1 h2 h3 with ⟨k, h⟩ | ⟨o, l, h, _⟩
  · exact ⟨k, n, h⟩
  · obtain ⟨_, k, s, h, _⟩ := hi.acked _ _ _ h
    exact ⟨k, s, h⟩

/-! ## One step -/

structure Frame (c : SCfg) (w w' : World) : Prop where
  mv : Mv c w.s w'.s
  sent : ∀ x ∈ w.sent, x ∈ w'.sent
  hist : ∀ e ∈ w.h, e ∈ w'.h
  org : ∀ v id, w'.origin v = some id → w.origin v = some id ∨ TokOk w.s id

theorem Uploaded.mono {w w' : World} (hs : ∀ x ∈ w.sent, x ∈ w'.sent) {id pos : Nat} {b : Byte} (h : Uploaded w id pos b) : Uploaded w' id pos b := by
  obtain ⟨off, body, h1, h2⟩ := h
  exact ⟨off, body, hs _ h1, h2⟩

theorem inUse_mv {s s' : DSt} (hf : Facts c s) (hm : Mv c s s') {o : Obj} (h : InUse s' o) : InUse s o ∨ s.names o.id = none := by
  cases hm with
  | stay => exact Or.inl h
  | run hr =>
    rcases inUse_back hf hr.step h with h | ⟨call, old, ifne, h⟩
    · exact Or.inl h
    · exact Or.inr (publish_inv hr.step h).1
  | restart order h1 h2 h3 => exact Or.inl (inUse_load hf h2 h3 h)

theorem Frame.alive (hc : c.Ok) {w w' : World} (hf : Frame c w w') (hi : Inv c S part w) {id : Nat} (hp : Past w.s id) (h : Alive w' id) : Alive w id := by
  have hF := calm_facts hc hi.calm
  rcases h with h | ⟨v, m, h1, h2⟩
  · exact Or.inl (hf.mv.tok hF hp h)
  · rcases hf.org v id h1 with h1 | h1
    · rcases inUse_mv hF hf.mv h2 with h2 | h2
      · exact Or.inr ⟨v, m, h1, h2⟩
      · exact absurd ((hi.org v id h1).1.symm.trans h2) hp.1
    · exact Or.inl h1

theorem inUse_named {s : DSt} (hF : Facts c s) {o : Obj} (h : InUse s o) : NamedO s.names o := by
  rcases h with h | ⟨th, hth, hv⟩
  · exact hF.safe.N.com _ _ h
  · refine hF.safe.N.thr th hth _ ?_
    generalize th.pc = pc at hv
    cases pc with
    | reap o' why => cases why <;> simp_all [PC.victims, PC.objs]
    | reapTuple o' t tk why => cases why <;> simp_all [PC.victims, PC.objs]
    | _ => simp_all [PC.victims, PC.objs]

/-- a byte of a page of a living upload changes only to a byte of a write of this upload to this page -/
theorem byte_step (hc : c.Ok) {w : World} (hi : Inv c S part w) {s' : DSt} (hm : Mv c w.s s') {id mo : Nat} {m : Meta}
    (ha : Alive w id) (hn : w.s.names id = some (mo, m)) {off e x : Nat} (hp : (off, e) ∈ m.dataPages c.pages)
    (h1 : off ≤ x) (h2 : x < off + 2 ^ e) (hx : s'.dev x ≠ w.s.dev x) :
    ∃ y ∈ w.s.writers, y.id = id ∧ y.off = off ∧ y.data[x - off]? = some (s'.dev x) := by
  have hF := calm_facts hc hi.calm
  cases hm with
  | stay => exact absurd rfl hx
  | restart order _ _ hl => exact absurd (by rw [C51_restart_unchanged hl]) hx
  | run hr =>
    rcases ha with ha | ⟨v, m', h3, h4⟩
    · obtain ⟨g1, g2⟩ := tok_owner hF hn ha hp h1 h2
      rcases hr.torn x hx with ⟨th, hth, o, t, page, hpc, h3, h4⟩ | ⟨y, hy, h3, h4⟩
      · exact (g1 th hth o t page hpc h3 h4).elim
      · have hlt := (List.getElem?_eq_some_iff.1 h4).1
        obtain ⟨e1, e2⟩ := g2 y hy h3 (by omega)
        exact ⟨y, hy, e1, e2, by rw [← e2]; exact h4⟩
    · have hno : NamedO w.s.names ⟨v, m'⟩ := inUse_named hF h4
      obtain ⟨mo2, hno⟩ := hno
      simp only at hno
      rw [(hi.org v id h3).1, hn] at hno
      simp only [Option.some.injEq, Prod.mk.injEq] at hno
      have := inUse_stable (o := ⟨v, m'⟩) hF.H hF.K hF.safe h4 hr.step (off := off) (p := e) (x := x) (by rw [← hno.2]; exact hp) h1 h2
      exact absurd this hx

theorem Frame.page (hc : c.Ok) {w w' : World} (hf : Frame c w w') (hi : Inv c S part w) {id mo : Nat} {m : Meta} (ha : Alive w id)
    (hn : w.s.names id = some (mo, m)) {pos off e : Nat} (hp : (pos, off, e) ∈ placed 0 (m.dataPages c.pages))
    (h : PageGood w id m.size pos off e) : PageGood w' id m.size pos off e := by
  intro j hj hlt
  by_cases hx : w'.s.dev (off + j) = w.s.dev (off + j)
  · rw [hx]; exact (h j hj hlt).mono hf.sent
  · obtain ⟨y, hy, e1, e2, e3⟩ := byte_step hc hi hf.mv ha hn (placed_mem hp) (Nat.le_add_right off j) (by omega) hx
    have := hi.wrs y hy mo m (by rw [e1]; exact hn) pos e (by rw [e2]; exact hp) j (w'.s.dev (off + j)) hj hlt
      (by rw [← e3]; congr 1; omega)
    rw [e1] at this
    exact this.mono hf.sent

theorem Frame.partGood (hc : c.Ok) {w w' : World} (hf : Frame c w w') (hi : Inv c S part w) {id off : Nat} (hp : Past w.s id)
    (h : PartGood c w id off) : PartGood c w' id off := by
  intro ha mo m hn pos poff e hpl h1 h2
  have ha' := hf.alive hc hi hp ha
  rw [hf.mv.names hp.1] at hn
  exact hf.page hc hi ha' hn hpl (h ha' mo m hn pos poff e hpl h1 h2)

/-- the geometry of the part a request writes -/
structure Geo (c : SCfg) (p : Put) (a b : List (Nat × Nat)) : Prop where
  fit : RW.Fit (p.targets c) (RW.partPages c.pages p.lay p.o.m.rw p.off)
  sum : RW.amtSum (p.targets c) = p.len
  pages : p.o.m.dataPages c.pages = a ++ RW.partPages c.pages p.lay p.o.m.rw p.off ++ b
  pa : RW.psum a = p.off
  b1 : b = [] ∨ p.len = RW.psum (RW.partPages c.pages p.lay p.o.m.rw p.off)
  b2 : b = [] → p.off + p.len = p.o.m.size
  sp : ∀ q ∈ RW.partPages c.pages p.lay p.o.m.rw p.off, c.pages.spage ≤ q.2

theorem geo (hc : c.Ok) {s : DSt} (hs : Calm c s) {p : Put} (hn : NamedO s.names p.o) (hlay : calcObjectLayoutDirect c.pages p.o.m.size = some p.lay)
    (hchk : RW.writeCheck c.pages p.o.m.size p.off p.len = none) : ∃ a b, Geo c p a b := by
  obtain ⟨mo, hn⟩ := hn
  have hsh := (reach_sh (calm_facts hc hs).reach).nm _ _ _ hn
  have hp : RW.PagesOk c.pages := ⟨hc.sl, hc.l32, hc.l24⟩
  have hlay' : calcObjectLayout c.pages p.o.m.rw.size = some p.lay := by
    unfold calcObjectLayoutDirect at hlay
    split at hlay
    · exact hlay
    · exact absurd hlay (by simp)
  obtain ⟨es, hi⟩ := RW.layInfo_of hp hlay'
  obtain ⟨hfit, hsum, a, b, hobj, hpa, hb1, hb2, hsp⟩ := hi.targets (o := p.o.m.rw) hp p.off p.len hchk
  rw [rw_pages hlay hsh] at hobj
  exact ⟨a, b, hfit, hsum, hobj, hpa, hb1, hb2, hsp⟩

/-- page `i` of the part, as a page of the object -/
theorem Geo.page {p : Put} {a b : List (Nat × Nat)} (hg : Geo c p a b) {i poff e : Nat}
    (h : (RW.partPages c.pages p.lay p.o.m.rw p.off)[i]? = some (poff, e)) :
    (p.off + RW.psum ((RW.partPages c.pages p.lay p.o.m.rw p.off).take i), poff, e) ∈ placed 0 (p.o.m.dataPages c.pages) := by
  rw [hg.pages, placed_append, placed_append, hg.pa]
  have := placed_at (pos0 := 0 + p.off) h
  rw [Nat.zero_add] at this
  simp [this]

/-- a page of the object in the part is a page of the part -/
theorem Geo.back {p : Put} {a b : List (Nat × Nat)} (hg : Geo c p a b) (hchk : RW.writeCheck c.pages p.o.m.size p.off p.len = none)
    {pos poff e : Nat} (h : (pos, poff, e) ∈ placed 0 (p.o.m.dataPages c.pages)) (h1 : p.off ≤ pos) (h2 : pos < p.off + 2 ^ c.pages.lpage)
    (h3 : pos < p.o.m.size) :
    ∃ i, (RW.partPages c.pages p.lay p.o.m.rw p.off)[i]? = some (poff, e) ∧
      pos = p.off + RW.psum ((RW.partPages c.pages p.lay p.o.m.rw p.off).take i) := by
  rw [hg.pages, placed_append, placed_append] at h
  obtain ⟨_, hlen, _⟩ := Http.writeCheck_none hchk
  have hmid : (pos, poff, e) ∈ placed (0 + RW.psum a) (RW.partPages c.pages p.lay p.o.m.rw p.off) := by
    rcases List.mem_append.1 h with h | h
    · rcases List.mem_append.1 h with h | h
      · have := placed_bound h
        have := Nat.two_pow_pos e
        have := hg.pa
        omega
      · exact h
    · have hge := (placed_bound h).1
      rcases hg.b1 with rfl | hb1
      · cases h
      · rw [RW.psum_append, ← hb1, hg.pa] at hge
        omega
  rw [hg.pa, Nat.zero_add] at hmid
  exact placed_idx hmid

theorem Frame.put (hc : c.Ok) {w w' : World} (hf : Frame c w w') (hi : Inv c S part w) {p : Put} (h : PutOk c S part w p) : PutOk c S part w' p := by
  obtain ⟨mo, hn⟩ := id h.named
  obtain ⟨a, b, hg⟩ := geo hc hi.calm h.named h.lay h.chk
  obtain ⟨k, hk⟩ := h.created
  have hpast := (hi.made _ _ _ hk rfl).1
  refine ⟨⟨mo, by rw [hf.mv.names (by rw [hn]; simp)]; exact hn⟩, ⟨k, hf.hist _ hk⟩, unforged_mono hf.hist h.unf, h.pre, h.off64, h.chk, h.lay,
    hf.sent _ h.sent, h.data, h.len, h.idx, h.wr, h.busy, ?_⟩
  intro ha i hlt poff e hpp
  have ha' := hf.alive hc hi hpast ha
  exact hf.page hc hi ha' hn (hg.page hpp) (h.good ha' i hlt poff e hpp)

theorem Inv.next (hc : c.Ok) {w w' : World} (hi : Inv c S part w) (hf : Frame c w w') (hex : Http.Exec S w'.h)
    (horg : ∀ v id, w'.origin v = some id → w.origin v = some id ∨
      w'.s.names v = w'.s.names id ∧ ∃ key claimed, .committed ⟨id, part⟩ key claimed ∈ w'.h)
    (hkeep : ∀ v, w.origin v ≠ none → w'.origin v ≠ none)
    (hwr : ∀ x ∈ w'.s.writers, x ∈ w.s.writers ∨ WriterOk c w' x)
    (hmade : ∀ tok k sz, .created tok k sz ∈ w'.h → tok.part = part → .created tok k sz ∈ w.h ∨
      Past w'.s tok.id ∧ ∃ mo m, w'.s.names tok.id = some (mo, m) ∧ m.key = k ∧ m.size = sz)
    (hack : ∀ tok off len, .acked tok off len ∈ w'.h → tok.part = part → .acked tok off len ∈ w.h ∨ PartGood c w' tok.id off)
    (hclm : ∀ o, Holds w'.s o → Holds w.s o ∨ ∃ key claimed, .committed ⟨o.id, part⟩ key claimed ∈ w'.h)
    (hvis : ∀ o, InUse w'.s o → InUse w.s o ∨ w'.origin o.id ≠ none)
    (hputs : ∀ p ∈ w'.puts, p ∈ w.puts ∨ PutOk c S part w' p) : Inv c S part w' := by
  have hF := calm_facts hc hi.calm
  refine ⟨hf.mv.calm hi.calm, hex, ?_, ?_, ?_, ?_, ?_, ?_, ?_⟩
  · intro tok k sz h hpt
    rcases hmade tok k sz h hpt with h | h
    · obtain ⟨h2, mo, m, h3, h4⟩ := hi.made tok k sz h hpt
      exact ⟨hf.mv.past h2, mo, m, by rw [hf.mv.names h2.1]; exact h3, h4⟩
    · exact h
  · intro p hp
    rcases hputs p hp with hp | hp
    · exact hf.put hc hi (hi.puts p hp)
    · exact hp
  · intro x hx
    rcases hwr x hx with hx | hx
    · intro mo m hn pos e hpl j b hj hlt hb
      obtain ⟨_, o, _, ⟨mo2, hn2⟩, ho, _⟩ := hF.safe.W.wr x hx
      rw [ho] at hn2
      rw [hf.mv.names (by rw [hn2]; simp)] at hn
      exact (hi.wrs x hx mo m hn pos e hpl j b hj hlt hb).mono hf.sent
    · exact hx
  · intro tok off len h hpt
    rcases hack tok off len h hpt with h | h
    · obtain ⟨_, k, sz, hk, _⟩ := (Http.exec_inv hi.exec).acked _ _ _ h
      exact hf.partGood hc hi (hi.made _ _ _ hk hpt).1 (hi.ack tok off len h hpt)
    · exact h
  · intro o ho
    rcases hclm o ho with ho | ho
    · obtain ⟨key, cl, h⟩ := hi.clm o ho
      exact ⟨key, cl, hf.hist _ h⟩
    · exact ho
  · intro v id h
    rcases horg v id h with h | h
    · have hp := hi.org_past h
      obtain ⟨h1, key, cl, h2⟩ := hi.org v id h
      have hv : w.s.names v ≠ none := by rw [h1]; exact hp.1
      exact ⟨by rw [hf.mv.names hp.1, hf.mv.names hv, h1], key, cl, hf.hist _ h2⟩
    · exact h
  · intro o ho
    rcases hvis o ho with ho | ho
    · exact hkeep _ (hi.vis o ho)
    · exact ho

/-! ## The steps -/

theorem holds_mv {s s' : DSt} (hf : Facts c s) (hr : Runs c s s') (hl : ∀ call id m, s'.lin ≠ s.lin ++ [(call, .claimed id m)]) {o : Obj}
    (h : Holds s' o) : Holds s o := by
  rcases holds_back hf hr.step h with h | ⟨call, h⟩
  · exact h
  · exact absurd h (hl _ _ _)

theorem inUse_mv' {s s' : DSt} (hf : Facts c s) (hr : Runs c s s') (hl : ∀ call old id m i, s'.lin ≠ s.lin ++ [(call, .published old id m i)]) {o : Obj}
    (h : InUse s' o) : InUse s o := by
  rcases inUse_back hf hr.step h with h | ⟨call, old, ifne, h⟩
  · exact h
  · exact absurd h (hl _ _ _ _ _)

/-- steps of the store that leave the requests and the history of the server alone -/
theorem writers_step {s s' : DSt} (hs : Step c s s') (hp : s'.orphans = []) (hl : ∃ call e, s'.lin = s.lin ++ [(call, e)]) :
    s'.writers = s.writers := by
  obtain ⟨call, e, hl⟩ := hl
  cases hs <;> first | rfl | simp at hl

theorem puts_swap {pre post : List Put} {x p q : Put} (h : q ∈ pre ++ x :: post) : q = x ∨ q ∈ pre ++ p :: post := by
  simp only [List.mem_append, List.mem_cons] at h ⊢
  rcases h with h | h | h
  · exact Or.inr (Or.inl h)
  · exact Or.inl h
  · exact Or.inr (Or.inr (Or.inr h))

theorem Inv.issue (hc : c.Ok) {w : World} (hi : Inv c S part w) {a : Http.Action} {e : Nat} (ha : a.Valid) (he : e < 2 ^ 64) :
    Inv c S part { w with h := .issued a e :: w.h } := by
  refine hi.next hc ⟨.stay, fun _ h => h, fun _ h => List.mem_cons_of_mem _ h, fun _ _ h => Or.inl h⟩ (.issue hi.exec ha he)
    (fun _ _ h => Or.inl h) (fun _ h => h) (fun _ h => Or.inl h) ?_ ?_ (fun _ h => Or.inl h) (fun _ h => Or.inl h) (fun _ h => Or.inl h)
  · intro tok k sz h _; simp only [List.mem_cons, reduceCtorEq, false_or] at h; exact Or.inl h
  · intro tok k sz h _; simp only [List.mem_cons, reduceCtorEq, false_or] at h; exact Or.inl h

theorem Inv.create (hc : c.Ok) {w : World} (hi : Inv c S part w) {s' : DSt} {path : Bytes} {t : List Char} {now call id : Nat} {m : Meta}
    (hpart : part < 2 ^ 64) (hu : Http.Unforged S w.h (.create path m.size t)) (hpre : Http.preflight S now (.create path m.size t) = .ok (.create m.key m.size))
    (hs64 : m.size < 2 ^ 64) (hid : id < 2 ^ 128) (hr : Runs c w.s s') (hl : s'.lin = w.s.lin ++ [(call, .created id m)]) :
    Inv c S part { w with s := s', h := .created ⟨id, part⟩ m.key m.size :: w.h } := by
  have hF := calm_facts hc hi.calm
  have hF' := calm_facts hc (Calm.step hi.calm hr.step hr.polite)
  obtain ⟨⟨th, hth, tk, hpc⟩, hinc, hnm⟩ := created_inv hr.step hl
  obtain ⟨mo, hn⟩ := hF.safe.N.thr th hth ⟨id, m⟩ (by rw [hpc]; simp [PC.objs])
  have hnew : ∀ k s, Http.Ev.created ⟨id, part⟩ k s ∉ w.h := by
    intro k sz h
    exact (hi.made _ _ _ h rfl).1.2 th hth (by rw [hpc]; simp [PC.cid])
  refine hi.next hc ⟨.run hr, fun _ h => h, fun _ h => List.mem_cons_of_mem _ h, fun _ _ h => Or.inl h⟩
    (.create hi.exec hu hpre hs64 ⟨hid, hpart⟩ hnew)
    (fun _ _ h => Or.inl h) (fun _ h => h) ?_ ?_ ?_ ?_ ?_ (fun _ h => Or.inl h)
  · intro x hx
    have := writers_step hr.step hr.polite.writes ⟨_, _, hl⟩
    exact Or.inl (by rw [← this]; exact hx)
  · intro tok k sz h _
    rcases List.mem_cons.1 h with h | h
    · simp only [Http.Ev.created.injEq] at h
      obtain ⟨rfl, rfl, rfl⟩ := h
      refine Or.inr ⟨?_, mo, m, by simp only [hnm]; exact hn, rfl, rfl⟩
      exact held_past hF'.id hF'.H (by simp only [hnm]; rw [hn]; simp) (Or.inl (by rw [hinc]; simp))
    · exact Or.inl h
  · intro tok off len h _; simp only [List.mem_cons, reduceCtorEq, false_or] at h; exact Or.inl h
  · exact fun o h => Or.inl (holds_mv hF hr (by rw [hl]; simp) h)
  · exact fun o h => Or.inl (inUse_mv' hF hr (by rw [hl]; simp) h)

theorem Inv.putStart (hc : c.Ok) {w : World} (hi : Inv c S part w) {s' : DSt} {path : Bytes} {off len now id : Nat} {up t : List Char}
    {body : List (Except Unit Bytes)} {o : Obj} {lay : ObjectLayout} (hu : Http.Unforged S w.h (.write path off len up t body))
    (hpre : Http.preflight S now (.write path off len up t body) = .ok (.write ⟨id, part⟩ off len body)) (hoff : off < 2 ^ 64)
    (hinc : w.s.incomplete id = some o) (hchk : RW.writeCheck c.pages o.m.size off len = none)
    (hlay : calcObjectLayoutDirect c.pages o.m.size = some lay) (hr : Runs c w.s s') (he : s' = { w.s with handles := o :: w.s.handles }) :
    Inv c S part { w with
        s := s'
        puts := w.puts ++ [⟨path, off, len, up, t, body, now, o, lay, body, [], 0, 0, none⟩]
        sent := (id, off, body) :: w.sent } := by
  have hF := calm_facts hc hi.calm
  have hoid : o.id = id := hF.id.incKey _ _ hinc
  obtain ⟨mo, hn⟩ := hF.safe.N.inc _ _ hinc
  have hcr : ∃ k, Http.Ev.created ⟨o.id, part⟩ k o.m.size ∈ w.h := by
    simp only [Http.preflight] at hpre
    split at hpre
    · cases hpre
    split at hpre
    · cases hpre
    split at hpre
    · cases hpre
    rename_i tok n hup
    simp only [Except.ok.injEq, Http.Call.write.injEq, true_and, and_true] at hpre
    subst hpre
    obtain ⟨k, sz, h⟩ := upload_created hi.exec hup (fun raw h1 h2 => hu.upload path up [] t raw off len body (Or.inr rfl) h1 h2)
    obtain ⟨_, mo2, m2, hn2, _, h3⟩ := hi.made _ _ _ h rfl
    simp only at hn2
    rw [← hoid, hn] at hn2
    simp only [Option.some.injEq, Prod.mk.injEq] at hn2
    rw [← hn2.2] at h3
    exact ⟨k, by rw [h3, hoid]; exact h⟩
  refine hi.next hc ⟨.run hr, fun _ h => List.mem_cons_of_mem _ h, fun _ h => h, fun _ _ h => Or.inl h⟩ hi.exec
    (fun _ _ h => Or.inl h) (fun _ h => h) (fun x hx => Or.inl (by rw [he] at hx; exact hx)) (fun _ _ _ h _ => Or.inl h) (fun _ _ _ h _ => Or.inl h)
    (fun o h => Or.inl (by rw [he] at h; exact h)) (fun o h => Or.inl (by rw [he] at h; exact h)) ?_
  intro p hp
  simp only [List.mem_append, List.mem_singleton] at hp
  rcases hp with hp | rfl
  · exact Or.inl hp
  · refine Or.inr ⟨⟨mo, by rw [he]; exact hn⟩, hcr, hu, ?_, hoff, hchk, hlay, ?_, by simp, by simp, by simp, by simp, by simp, by simp⟩
    · simp only [Put.req]; rw [hoid]; exact hpre
    · simp [hoid]

theorem Inv.putChunk (hc : c.Ok) {w : World} (hi : Inv c S part w) {pre post : List Put} {p : Put} {c' : Bytes} {rest : List (Except Unit Bytes)}
    (hpu : w.puts = pre ++ p :: post) (hb : p.busy = none) (hst : p.stream = .ok c' :: rest) :
    Inv c S part { w with puts := pre ++ { p with stream := rest, buf := p.buf ++ c' } :: post } := by
  have hf : Frame c w { w with puts := pre ++ { p with stream := rest, buf := p.buf ++ c' } :: post } :=
    ⟨.stay, fun _ h => h, fun _ h => h, fun _ _ h => Or.inl h⟩
  refine hi.next hc hf hi.exec
    (fun _ _ h => Or.inl h) (fun _ h => h) (fun x hx => Or.inl hx) (fun _ _ _ h _ => Or.inl h) (fun _ _ _ h _ => Or.inl h)
    (fun o h => Or.inl h) (fun o h => Or.inl h) ?_
  intro q hq
  rcases puts_swap (p := p) hq with rfl | hq
  · obtain ⟨h1, h2, h3, h4, h5, h6, h7, h8, h9, h10, h11, h12, h13, h14⟩ := hf.put hc hi (hi.puts p (by rw [hpu]; simp))
    refine Or.inr ⟨h1, h2, h3, h4, h5, h6, h7, h8, ?_, h10, h11, h12, ?_, h14⟩
    · simp only [h9, hst, received, List.append_assoc]
    · intro d hd; simp only at hd; rw [hb] at hd; cases hd
  · exact Or.inl (hpu ▸ hq)

theorem Inv.putWrite (hc : c.Ok) {w : World} (hi : Inv c S part w) {s' : DSt} {pre post : List Put} {p : Put} {amt poff : Nat} (junk : Nat → Byte)
    (hpu : w.puts = pre ++ p :: post) (hb : p.busy = none) (ht : (p.targets c)[p.idx]? = some (amt, poff)) (hle : amt ≤ p.buf.length)
    (hr : Runs c w.s s') (he : s' = { w.s with writers := w.s.writers ++ [⟨p.o.id, poff, RW.blockDirect c.pages junk (p.buf.take amt)⟩] }) :
    Inv c S part { w with s := s', puts := pre ++ { p with busy := some (RW.blockDirect c.pages junk (p.buf.take amt)) } :: post } := by
  have hf : Frame c w { w with s := s', puts := pre ++ { p with busy := some (RW.blockDirect c.pages junk (p.buf.take amt)) } :: post } :=
    ⟨.run hr, fun _ h => h, fun _ h => h, fun _ _ h => Or.inl h⟩
  have hp := hi.puts p (by rw [hpu]; simp)
  obtain ⟨a, b, hg⟩ := geo hc hi.calm hp.named hp.lay hp.chk
  obtain ⟨e, g1, g2, g3, g4, g5, g6⟩ := fit_get hg.fit ht
  have hF' := calm_facts hc (Calm.step hi.calm hr.step hr.polite)
  have hmemw : (⟨p.o.id, poff, RW.blockDirect c.pages junk (p.buf.take amt)⟩ : Writer) ∈ s'.writers := by rw [he]; simp
  have hnodup : ((p.o.m.dataPages c.pages).map (·.1)).Nodup := by
    obtain ⟨hh, o2, q, hno, ho2, _⟩ := hF'.safe.W.wr _ hmemw
    have h1 := held_places hF' hno (by rw [ho2]; exact hh)
    obtain ⟨mo, hn⟩ := hp.named
    obtain ⟨mo2, hno⟩ := hno
    have : s'.names o2.id = some (mo, p.o.m) := by rw [ho2, he]; exact hn
    rw [this] at hno
    simp only [Option.some.injEq, Prod.mk.injEq] at hno
    rw [hno.2]; exact h1
  refine hi.next hc hf hi.exec
    (fun _ _ h => Or.inl h) (fun _ h => h) ?_ (fun _ _ _ h _ => Or.inl h) (fun _ _ _ h _ => Or.inl h)
    (fun o h => Or.inl (by rw [he] at h; exact h)) (fun o h => Or.inl (by rw [he] at h; exact h)) ?_
  · intro x hx
    simp only [he, List.mem_append, List.mem_singleton] at hx
    rcases hx with hx | rfl
    · exact Or.inl hx
    · right
      intro mo m hn pos e' hpl j bt hj hlt hbt
      simp only at hn hpl hbt
      obtain ⟨mo2, hn2⟩ := hp.named
      rw [he] at hn
      simp only at hn
      rw [hn2] at hn
      simp only [Option.some.injEq, Prod.mk.injEq] at hn
      rw [← hn.2] at hpl hlt
      obtain ⟨rfl, rfl⟩ := placed_uniq hnodup hpl (hg.page g1)
      -- byte `j` of the block is byte `j` of the buffer
      have hjamt : j < amt := by
        rcases g6 with g6 | ⟨g6, g7⟩
        · rw [g6]; exact hj
        · have hs : RW.amtSum (p.targets c) = RW.amtSum ((p.targets c).take p.idx) + amt := by
            rw [← g4, g6, List.take_length]
          have hps : RW.psum (RW.partPages c.pages p.lay p.o.m.rw p.off) = RW.psum ((RW.partPages c.pages p.lay p.o.m.rw p.off).take p.idx) + 2 ^ e' := by
            rw [← g5, g7, List.take_length]
          have hsum := hg.sum
          rcases hg.b1 with hb1 | hb1
          · have := hg.b2 hb1
            omega
          · omega
      have hb0 : bt ∈ (p.buf.take amt)[j]? := by
        have hb := hbt
        unfold RW.blockDirect at hb
        rw [List.getElem?_append_left (by rw [List.length_take]; omega)] at hb
        exact hb
      rw [List.getElem?_take_of_lt hjamt] at hb0
      refine ⟨p.off, p.body, hp.sent, by omega, ?_⟩
      have hd : (received p.body)[p.written + j]? = some bt := by
        rw [← List.getElem?_drop, hp.data, List.getElem?_append_left (by omega)]
        exact hb0
      rw [← hd, hp.wr, g3]
      congr 1; omega
  · intro q hq
    rcases puts_swap (p := p) hq with rfl | hq
    · obtain ⟨h1, h2, h3, h4, h5, h6, h7, h8, h9, h10, h11, h12, h13, h14⟩ := hf.put hc hi hp
      refine Or.inr ⟨h1, h2, h3, h4, h5, h6, h7, h8, h9, h10, h11, h12, ?_, h14⟩
      intro d hd
      simp only [Option.some.injEq] at hd
      exact ⟨junk, amt, poff, ht, hle, hd.symm⟩
    · exact Or.inl (hpu ▸ hq)

theorem write_get {dev : Mem} {off : Nat} {d : List Byte} {j : Nat} {b : Byte} (h : d[j]? = some b) : dev.write off d (off + j) = b := by
  obtain ⟨hj, h⟩ := List.getElem?_eq_some_iff.1 h
  have := Mem.read_write_sub dev off d j 1 (by omega)
  rw [read_getElem] at this
  simp only [List.range_one, List.map_cons, List.map_nil, Nat.add_zero] at this
  rw [List.drop_eq_getElem_cons hj] at this
  simp only [List.take_succ_cons, List.take_zero, List.cons.injEq, and_true] at this
  rw [this, h]

theorem Inv.putWritten (hc : c.Ok) {w : World} (hi : Inv c S part w) {s' : DSt} {pre post : List Put} {p : Put} {amt poff : Nat} {data : Bytes}
    {ws ws' : List Writer} (hpu : w.puts = pre ++ p :: post) (hb : p.busy = some data) (ht : (p.targets c)[p.idx]? = some (amt, poff))
    (hws : w.s.writers = ws ++ ⟨p.o.id, poff, data⟩ :: ws') (hr : Runs c w.s s')
    (he : s' = { w.s with dev := w.s.dev.write poff data, writers := ws ++ ws' }) :
    Inv c S part { w with
        s := s'
        puts := pre ++ { p with busy := none, buf := p.buf.drop amt, written := p.written + amt, idx := p.idx + 1 } :: post } := by
  have hf : Frame c w { w with
        s := s'
        puts := pre ++ { p with busy := none, buf := p.buf.drop amt, written := p.written + amt, idx := p.idx + 1 } :: post } :=
    ⟨.run hr, fun _ h => h, fun _ h => h, fun _ _ h => Or.inl h⟩
  have hp := hi.puts p (by rw [hpu]; simp)
  obtain ⟨a, b, hg⟩ := geo hc hi.calm hp.named hp.lay hp.chk
  obtain ⟨e, g1, g2, g3, g4, g5, g6⟩ := fit_get hg.fit ht
  obtain ⟨junk, amt', poff', ht', hle, hdata⟩ := hp.busy data hb
  rw [ht] at ht'
  simp only [Option.some.injEq, Prod.mk.injEq] at ht'
  obtain ⟨rfl, rfl⟩ := ht'
  refine hi.next hc hf hi.exec
    (fun _ _ h => Or.inl h) (fun _ h => h) ?_ (fun _ _ _ h _ => Or.inl h) (fun _ _ _ h _ => Or.inl h)
    (fun o h => Or.inl (by rw [he] at h; exact h)) (fun o h => Or.inl (by rw [he] at h; exact h)) ?_
  · intro x hx
    refine Or.inl ?_
    rw [hws]
    simp only [he, List.mem_append] at hx
    simp only [List.mem_append, List.mem_cons]
    exact hx.imp (fun h => h) Or.inr
  · intro q hq
    rcases puts_swap (p := p) hq with rfl | hq
    · obtain ⟨h1, h2, h3, h4, h5, h6, h7, h8, h9, h10, h11, h12, h13, h14⟩ := hf.put hc hi hp
      right
      have hlen : p.written + amt ≤ (received p.body).length := by
        have := congrArg List.length hp.data
        rw [List.length_drop, List.length_append] at this
        have := hp.len
        omega
      refine ⟨h1, h2, h3, h4, h5, h6, h7, h8, ?_, hlen, ?_, ?_, by simp, ?_⟩
      · simp only
        rw [← List.drop_drop, hp.data, List.drop_append_of_le_length hle]
      · exact (List.getElem?_eq_some_iff.1 ht).1
      · show p.written + amt = RW.amtSum ((p.targets c).take (p.idx + 1))
        rw [g4, hp.wr]
      · intro ha i hlt poff2 e2 hpp
        by_cases hip : i < p.idx
        · exact h14 ha i hip poff2 e2 hpp
        · have : i = p.idx := by simp only at hlt; omega
          subst this
          rw [show (RW.partPages c.pages p.lay p.o.m.rw p.off)[p.idx]? = some (poff2, e2) from hpp] at g1
          simp only [Option.some.injEq, Prod.mk.injEq] at g1
          obtain ⟨rfl, rfl⟩ := g1
          intro j hj hjs
          show Uploaded _ p.o.id (p.off + RW.psum ((RW.partPages c.pages p.lay p.o.m.rw p.off).take p.idx) + j) (s'.dev (poff2 + j))
          have hjs : p.off + RW.psum ((RW.partPages c.pages p.lay p.o.m.rw p.off).take p.idx) + j < p.o.m.size := hjs
          have hjamt : j < amt := by
            rcases g6 with g6 | ⟨g6, g7⟩
            · rw [g6]; exact hj
            · have hs : RW.amtSum (p.targets c) = RW.amtSum ((p.targets c).take p.idx) + amt := by
                rw [← g4, g6, List.take_length]
              have hps : RW.psum (RW.partPages c.pages p.lay p.o.m.rw p.off) = RW.psum ((RW.partPages c.pages p.lay p.o.m.rw p.off).take p.idx) + 2 ^ e2 := by
                rw [← g5, g7, List.take_length]
              have hsum := hg.sum
              rcases hg.b1 with hb1 | hb1
              · have := hg.b2 hb1
                omega
              · omega
          have hbuf : p.buf[j]? = some (p.buf[j]'(by omega)) := List.getElem?_eq_getElem (by omega)
          have hd : data[j]? = p.buf[j]? := by
            rw [hdata, RW.blockDirect, List.getElem?_append_left (by rw [List.length_take]; omega), List.getElem?_take_of_lt hjamt]
          have hdev : s'.dev (poff2 + j) = p.buf[j]'(by omega) := by
            rw [he]; exact write_get (hd.trans hbuf)
          refine ⟨p.off, p.body, hp.sent, by omega, ?_⟩
          have hrc : (received p.body)[p.written + j]? = p.buf[j]? := by
            rw [← List.getElem?_drop, hp.data, List.getElem?_append_left (by omega)]
          rw [hdev, ← hbuf, ← hrc, hp.wr, g3]
          congr 1; omega
    · exact Or.inl (hpu ▸ hq)

theorem puts_drop {w : World} {pre post : List Put} {p : Put} (hpu : w.puts = pre ++ p :: post) : ∀ q ∈ pre ++ post, q ∈ w.puts := by
  intro q hq
  rw [hpu]
  simp only [List.mem_append, List.mem_cons] at hq ⊢
  exact hq.imp (fun h => h) Or.inr

theorem Inv.putFail (hc : c.Ok) {w : World} (hi : Inv c S part w) {pre post : List Put} {p : Put} (hpu : w.puts = pre ++ p :: post) :
    Inv c S part { w with puts := pre ++ post } := by
  refine hi.next hc ⟨.stay, fun _ h => h, fun _ h => h, fun _ _ h => Or.inl h⟩ hi.exec
    (fun _ _ h => Or.inl h) (fun _ h => h) (fun x hx => Or.inl hx) (fun _ _ _ h _ => Or.inl h) (fun _ _ _ h _ => Or.inl h)
    (fun o h => Or.inl h) (fun o h => Or.inl h) (fun q hq => Or.inl (puts_drop hpu q hq))

theorem Inv.putAck (hc : c.Ok) (hS : S.pages = c.pages) {w : World} (hi : Inv c S part w) {pre post : List Put} {p : Put} (hpu : w.puts = pre ++ p :: post)
    (hwr : p.written = p.len) : Inv c S part { w with puts := pre ++ post, h := .acked ⟨p.o.id, part⟩ p.off p.len :: w.h } := by
  have hf : Frame c w { w with puts := pre ++ post, h := .acked ⟨p.o.id, part⟩ p.off p.len :: w.h } :=
    ⟨.stay, fun _ h => h, fun _ h => List.mem_cons_of_mem _ h, fun _ _ h => Or.inl h⟩
  have hp := hi.puts p (by rw [hpu]; simp)
  obtain ⟨a, b, hg⟩ := geo hc hi.calm hp.named hp.lay hp.chk
  obtain ⟨k, hk⟩ := hp.created
  refine hi.next hc hf (.write hi.exec hp.unf hp.pre hk hp.off64 (by rw [hS]; exact hp.chk))
    (fun _ _ h => Or.inl h) (fun _ h => h) (fun x hx => Or.inl hx) ?_ ?_
    (fun o h => Or.inl h) (fun o h => Or.inl h) (fun q hq => Or.inl (puts_drop hpu q hq))
  · intro tok k sz h _; simp only [List.mem_cons, reduceCtorEq, false_or] at h; exact Or.inl h
  · intro tok off len h _
    rcases List.mem_cons.1 h with h | h
    · simp only [Http.Ev.acked.injEq] at h
      obtain ⟨rfl, rfl, rfl⟩ := h
      right
      intro ha mo m hn pos poff e hpl h1 h2 j hj hlt
      obtain ⟨mo2, hn2⟩ := hp.named
      simp only at hn
      rw [hn2] at hn
      simp only [Option.some.injEq, Prod.mk.injEq] at hn
      obtain ⟨_, rfl⟩ := hn
      obtain ⟨i, e1, e2⟩ := hg.back hp.chk hpl h1 h2 (by omega)
      have hidx : p.idx = (p.targets c).length := by
        by_contra hne
        have hlt : p.idx < (p.targets c).length := by have := hp.idx; omega
        have h3 : RW.amtSum (p.targets c) = RW.amtSum ((p.targets c).take p.idx) + RW.amtSum ((p.targets c).drop p.idx) := by
          rw [← RW.amtSum_append, List.take_append_drop]
        have h4 := hg.fit.pos ((p.targets c)[p.idx]) (List.getElem_mem _)
        rw [List.drop_eq_getElem_cons hlt, RW.amtSum_cons] at h3
        have := hp.wr
        have := hg.sum
        omega
      have hi' : i < p.idx := by
        rw [hidx, fit_len hg.fit]
        exact (List.getElem?_eq_some_iff.1 e1).1
      have := hp.good (hf.alive hc hi (hi.made _ _ _ hk rfl).1 ha) i hi' poff e e1
      rw [← e2] at this
      exact this j hj hlt
    · exact Or.inl h

theorem Inv.commit (hc : c.Ok) {w : World} (hi : Inv c S part w) {s' : DSt} {path key : Bytes} {up rc t : List Char} {now id claimed call : Nat} {m : Meta}
    (hu : Http.Unforged S w.h (.commit path up rc t)) (hpre : Http.preflight S now (.commit path up rc t) = .ok (.commit ⟨id, part⟩))
    (hk : Http.parseKey path = some key) (hup : Http.parseUpload S up = some (⟨id, part⟩, claimed)) (hr : Runs c w.s s')
    (hl : s'.lin = w.s.lin ++ [(call, .claimed id m)]) :
    Inv c S part { w with s := s', h := .committed ⟨id, part⟩ key claimed :: w.h } := by
  have hF := calm_facts hc hi.calm
  obtain ⟨k', sz, hcr⟩ := upload_created hi.exec hup (fun raw h1 h2 => hu.upload path up rc t raw 0 0 [] (Or.inl rfl) h1 h2)
  refine hi.next hc ⟨.run hr, fun _ h => h, fun _ h => List.mem_cons_of_mem _ h, fun _ _ h => Or.inl h⟩
    (.commit hi.exec hu hpre hcr hk hup)
    (fun _ _ h => Or.inl h) (fun _ h => h) ?_ ?_ ?_ ?_ ?_ (fun _ h => Or.inl h)
  · intro x hx
    have := writers_step hr.step hr.polite.writes ⟨_, _, hl⟩
    exact Or.inl (by rw [← this]; exact hx)
  · intro tok k sz h _; simp only [List.mem_cons, reduceCtorEq, false_or] at h; exact Or.inl h
  · intro tok k sz h _; simp only [List.mem_cons, reduceCtorEq, false_or] at h; exact Or.inl h
  · intro o h
    rcases holds_back hF hr.step h with h | ⟨call', h⟩
    · exact Or.inl h
    · rw [hl] at h
      simp only [List.append_cancel_left_eq, List.cons.injEq, Prod.mk.injEq, Ev.claimed.injEq, and_true] at h
      rw [← h.2.1]
      exact Or.inr ⟨key, claimed, by simp⟩
  · exact fun o h => Or.inl (inUse_mv' hF hr (by rw [hl]; simp) h)

theorem Inv.publish (hc : c.Ok) {w : World} (hi : Inv c S part w) {s' : DSt} {call old new : Nat} {m : Meta} {ifne : Bool} (hr : Runs c w.s s')
    (hl : s'.lin = w.s.lin ++ [(call, .published old new m ifne)]) : Inv c S part { w with s := s', origin := upd w.origin new (some old) } := by
  have hF := calm_facts hc hi.calm
  obtain ⟨hnew, hnm, th, hth, o, hpc, rfl, rfl⟩ := publish_inv hr.step hl
  obtain ⟨mo, hno⟩ := hF.safe.N.thr th hth o (by rw [hpc]; simp [PC.objs])
  have htok : TokOk w.s o.id := by
    have hown := hF.L.own th hth
    rw [hpc] at hown
    simp only [PC.own] at hown
    exact Or.inr ⟨th, hth, Or.inr ⟨by rw [hpc]; trivial, o.m, by rw [hown]; simp⟩⟩
  have hcase : ∀ v id, upd w.origin new (some o.id) v = some id → w.origin v = some id ∨ v = new ∧ id = o.id := by
    intro v id h
    simp only [upd] at h
    split at h
    · rename_i hv
      simp only [Option.some.injEq] at h
      exact Or.inr ⟨hv, h.symm⟩
    · exact Or.inl h
  refine hi.next hc ⟨.run hr, fun _ h => h, fun _ h => h, ?_⟩ hi.exec ?_ ?_ ?_ (fun _ _ _ h _ => Or.inl h) (fun _ _ _ h _ => Or.inl h) ?_ ?_ (fun _ h => Or.inl h)
  · intro v id h
    rcases hcase v id h with h | ⟨_, rfl⟩
    · exact Or.inl h
    · exact Or.inr htok
  · intro v id h
    rcases hcase v id h with h | ⟨rfl, rfl⟩
    · exact Or.inl h
    · right
      refine ⟨?_, hi.clm o ⟨th, hth, ifne, Or.inr hpc⟩⟩
      show s'.names v = s'.names o.id
      rw [hnm, names_stay hr.step (id := o.id) (by rw [hno]; simp)]
  · intro v h
    simp only [upd]
    split
    · simp
    · exact h
  · intro x hx
    have := writers_step hr.step hr.polite.writes ⟨_, _, hl⟩
    exact Or.inl (by rw [← this]; exact hx)
  · exact fun o h => Or.inl (holds_mv hF hr (by rw [hl]; simp) h)
  · intro o' h
    rcases inUse_back hF hr.step h with h | ⟨call', old', i', h⟩
    · exact Or.inl h
    · rw [hl] at h
      simp only [List.append_cancel_left_eq, List.cons.injEq, Prod.mk.injEq, Ev.published.injEq, and_true] at h
      right
      simp [upd, h.2.2.1]

theorem Inv.step (hc : c.Ok) (hpart : part < 2 ^ 64) (hS : S.pages = c.pages) {w w' : World} (hi : Inv c S part w) (hw : WStep c S part w w') : Inv c S part w' := by
  have hF := calm_facts hc hi.calm
  cases hw with
  | issue ha he => exact hi.issue hc ha he
  | created hu hpre h64 hid hr hl => exact hi.create hc hpart hu hpre h64 hid hr hl
  | putStart hu hpre hoff hinc hchk hlay hr he => exact hi.putStart hc hu hpre hoff hinc hchk hlay hr he
  | putChunk hpu hb hst => exact hi.putChunk hc hpu hb hst
  | putWrite junk hpu hb ht hle hr he => exact hi.putWrite hc junk hpu hb ht hle hr he
  | putWritten hpu hb ht hws hr he => exact hi.putWritten hc hpu hb ht hws hr he
  | putAck hpu hb hst hbuf hwr => exact hi.putAck hc hS hpu hwr
  | putFail hpu hb => exact hi.putFail hc hpu
  | commit hu hpre hk hup hr hl => exact hi.commit hc hu hpre hk hup hr hl
  | publish hr hl => exact hi.publish hc hr hl
  | @inner s' hr hwr hl =>
    have h1 : ∀ e, Tracked e → ∀ call, s'.lin ≠ w.s.lin ++ [(call, e)] := by
      intro e he call h
      rcases hl with hl | ⟨e', hl, hn⟩
      · rw [hl] at h
        simp at h
      · rw [hl] at h
        simp only [List.append_cancel_left_eq, List.cons.injEq, and_true] at h
        rw [h] at hn
        exact hn he
    refine hi.next hc ⟨.run hr, fun _ h => h, fun _ h => h, fun _ _ h => Or.inl h⟩ hi.exec
      (fun _ _ h => Or.inl h) (fun _ h => h) (fun x hx => Or.inl (by rw [← hwr]; exact hx)) (fun _ _ _ h _ => Or.inl h) (fun _ _ _ h _ => Or.inl h)
      ?_ ?_ (fun q hq => Or.inl hq)
    · exact fun o h => Or.inl (holds_mv hF hr (fun call id m => h1 (.claimed id m) trivial call) h)
    · exact fun o h => Or.inl (inUse_mv' hF hr (fun call a b m i => h1 (.published a b m i) trivial call) h)

theorem Inv.restart (hc : c.Ok) {w : World} (hi : Inv c S part w) {s' : DSt} (order : List Tuple) (h1 : NoReplacing w.s)
    (h2 : order.Perm (diskTuples c.n w.s.ts)) (h3 : load c w.s order = some s') : Inv c S part { w with s := s', puts := [] } := by
  have hF := calm_facts hc hi.calm
  have hthr : s'.threads = [] ∧ s'.writers = [] := by obtain ⟨a0, l, _, _, _, rfl⟩ := load_some h3; exact ⟨rfl, rfl⟩
  refine hi.next hc ⟨.restart order h1 h2 h3, fun _ h => h, fun _ h => h, fun _ _ h => Or.inl h⟩ hi.exec
    (fun _ _ h => Or.inl h) (fun _ h => h) (fun x hx => by rw [hthr.2] at hx; cases hx) (fun _ _ _ h _ => Or.inl h) (fun _ _ _ h _ => Or.inl h)
    ?_ ?_ (fun q hq => by cases hq)
  · rintro o ⟨th, hth, _⟩; rw [hthr.1] at hth; cases hth
  · exact fun o h => Or.inl (inUse_load hF h2 h3 h)

/-- something happened in another partition -/
theorem Inv.other (hc : c.Ok) {w : World} (hi : Inv c S part w) {h' : List Http.Ev} (hx : Http.Exec S h') (hsub : ∀ e ∈ w.h, e ∈ h')
    (h1 : ∀ tok k sz, .created tok k sz ∈ h' → tok.part = part → .created tok k sz ∈ w.h)
    (h2 : ∀ tok off len, .acked tok off len ∈ h' → tok.part = part → .acked tok off len ∈ w.h) : Inv c S part { w with h := h' } :=
  hi.next hc ⟨.stay, fun _ h => h, hsub, fun _ _ h => Or.inl h⟩ hx
    (fun _ _ h => Or.inl h) (fun _ h => h) (fun _ h => Or.inl h) (fun tok k sz h hp => Or.inl (h1 tok k sz h hp))
    (fun tok k sz h hp => Or.inl (h2 tok k sz h hp)) (fun _ h => Or.inl h) (fun _ h => Or.inl h) (fun _ h => Or.inl h)

/-- what a partition adds to the history is about its own uploads -/
theorem wstep_hist {w w' : World} (hw : WStep c S part w w') : (∀ e ∈ w.h, e ∈ w'.h) ∧
    (∀ tok k sz, .created tok k sz ∈ w'.h → tok.part ≠ part → .created tok k sz ∈ w.h) ∧
    (∀ tok off len, .acked tok off len ∈ w'.h → tok.part ≠ part → .acked tok off len ∈ w.h) := by
  cases hw with
  | issue | created | putAck | commit =>
    refine ⟨fun _ h => List.mem_cons_of_mem _ h, fun tok k sz h hp => ?_, fun tok k sz h hp => ?_⟩
    all_goals
      rcases List.mem_cons.1 h with h | h
      · first
        | (cases h; done)
        | (simp only [Http.Ev.created.injEq, Http.Ev.acked.injEq] at h; exact absurd (by rw [h.1]) hp)
      · exact h
  | _ => exact ⟨fun _ h => h, fun _ _ _ h _ => h, fun _ _ _ h _ => h⟩

theorem Site.at_set (x : Site) (i : Nat) (w : World) : (x.set i w).at i = w := by
  simp [Site.at, Site.set, upd]

theorem Site.at_other (x : Site) {i j : Nat} (w : World) (h : j ≠ i) : (x.set i w).at j = { x.at j with h := w.h } := by
  simp [Site.at, Site.set, upd, h]

theorem serves_inv {c : CCfg} (hc : ∀ i, i < c.n → (c.part i).Ok) (hn : c.n ≤ 2 ^ 64) (hS : ∀ i, i < c.n → S.pages = (c.part i).pages) {x : Site}
    (h : Serves c S x) : ∀ i, i < c.n → Inv (c.part i) S i (x.at i) := by
  induction h with
  | start h =>
    intro i hi
    obtain ⟨dev, h⟩ := h i hi
    refine ⟨.fresh h, .nil, by simp [Site.at], by simp [Site.at], ?_, by simp [Site.at], ?_, by simp [Site.at], ?_⟩
    all_goals
      unfold Direct.fresh at h
      split at h <;> [cases h; skip]
      simp only [Option.some.injEq] at h
      simp [Holds, InUse, Site.at, ← h]
  | step j _ hj hw _ ih =>
    intro i hi
    have hj' := (ih j hj).step (hc j hj) (by omega) (hS j hj) hw
    by_cases he : i = j
    · subst he
      rw [Site.at_set]; exact hj'
    · rw [Site.at_other _ _ he]
      obtain ⟨g1, g2, g3⟩ := wstep_hist hw
      exact (ih i hi).other (hc i hi) hj'.exec g1 (fun tok k sz h hp => g2 tok k sz h (by omega)) (fun tok k sz h hp => g3 tok k sz h (by omega))
  | restart order _ h ih =>
    intro i hi
    obtain ⟨h1, h2, h3⟩ := h i hi
    exact (ih i hi).restart (hc i hi) (order i) h1 h2 h3

end Server
end Blobd
