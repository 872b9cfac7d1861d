import Verif.Proofs.ServerRun
import Verif.Props.HttpRead
/-!
# C72: what a GET returns was uploaded for that object

C42 says which receipts a commit needs, C62 what the store keeps of its device writes. This file joins them for the whole
server: every byte a visible object shows was sent, for the same upload and the same position, in the body of an
authorised write request.
-/
set_option autoImplicit false
namespace Blobd
namespace Props
open Server Http
open Direct (SCfg DSt Obj wcfg wcfg_ok CCfg)
open MP (Bytes)

/-- what an object in use is (visible, or being removed while reads of it may go on): it was created with this key and size and
committed, and the bytes of its acknowledged parts are uploaded bytes -/
theorem C72_acked_parts_hold_uploaded_bytes_partial {c : CCfg} {S : Srv} (hc : COk c) (hn : c.n ≤ 2 ^ 64) (hS : ∀ i, i < c.n → S.pages = (c.part i).pages) {x : Site} (hx : Serves c S x)
    {i : Nat} (hlt : i < c.n) {o : Obj} (hu : Direct.InUse (x.s i) o) :
    ∃ id, x.origin i o.id = some id ∧ .created ⟨id, i⟩ o.m.key o.m.size ∈ x.h ∧ (∃ key claimed, .committed ⟨id, i⟩ key claimed ∈ x.h) ∧
      ∀ lay, calcObjectLayoutDirect (c.part i).pages o.m.size = some lay → ∀ pos, pos < o.m.size →
        PartAcked x.h ⟨id, i⟩ (pos / 2 ^ (c.part i).pages.lpage * 2 ^ (c.part i).pages.lpage) →
        ∃ b, (RW.contents (c.part i).pages lay (x.s i).dev o.m.rw)[pos]? = some b ∧ Uploaded (x.at i) id pos b := by
  have hcp := hc i hlt
  have hi := serves_inv hc hn hS hx i hlt
  have hF := calm_facts hcp hi.calm
  cases hor : x.origin i o.id with
  | none => exact absurd hor (hi.vis o hu)
  | some id =>
    obtain ⟨hnm, key, claimed, hcm⟩ := hi.org _ _ hor
    obtain ⟨k2, sz, hcr⟩ := committed_created hi.exec hcm
    obtain ⟨_, mo, m, hn1, h3, h4⟩ := hi.made _ _ _ hcr rfl
    obtain ⟨mo', hn2⟩ := inUse_named hF hu
    have hn' := hn2
    simp only at hn1
    rw [hnm, hn1] at hn'
    simp only [Option.some.injEq, Prod.mk.injEq] at hn'
    obtain ⟨_, rfl⟩ := hn'
    subst h3 h4
    refine ⟨id, rfl, hcr, ⟨key, claimed, hcm⟩, ?_⟩
    intro lay hlay pos hpos ⟨len, hack⟩
    have hsh : o.m.Shape (c.part i) := (Direct.reach_sh hF.reach).nm _ _ _ hn2
    have hlay' : calcObjectLayout (c.part i).pages o.m.rw.size = some lay := by
      unfold calcObjectLayoutDirect at hlay
      split at hlay
      · exact hlay
      · exact absurd hlay (by simp)
    obtain ⟨es, hli⟩ := RW.layInfo_of ⟨hcp.sl, hcp.l32, hcp.l24⟩ hlay'
    have hlen : (RW.contents (c.part i).pages lay (x.s i).dev o.m.rw).length = o.m.rw.size := RW.contents_length hli (x.s i).dev
    have hil : pos < (RW.contents (c.part i).pages lay (x.s i).dev o.m.rw).length := by rw [hlen]; exact hpos
    have hil' : pos < (RW.allBytes (x.s i).dev (RW.objPages (c.part i).pages lay o.m.rw)).length := by
      simp only [RW.contents, List.length_take] at hil
      omega
    rw [Direct.rw_pages hlay hsh] at hil'
    obtain ⟨p0, off, e, j, g1, g2, g3, g4⟩ := allBytes_get (pos0 := 0) hil'
    have heq : (RW.contents (c.part i).pages lay (x.s i).dev o.m.rw)[pos]? = (RW.allBytes (x.s i).dev (o.m.dataPages (c.part i).pages))[pos]? := by
      simp only [RW.contents]
      rw [List.getElem?_take_of_lt (by exact hpos), Direct.rw_pages hlay hsh]
    refine ⟨_, heq.trans g4, ?_⟩
    have hpart := hi.ack _ _ _ hack rfl (Or.inr ⟨o.id, o.m, hor, hu⟩) mo o.m hn1 p0 off e g1
    obtain ⟨_, k3, s3, hc3, hwc⟩ := (Http.exec_inv hi.exec).acked _ _ _ hack
    obtain ⟨_, rfl⟩ := (Http.exec_inv hi.exec).once _ _ _ _ _ hcr hc3
    rw [hS i hlt] at hwc
    obtain ⟨_, hl1, _⟩ := Http.writeCheck_none hwc
    obtain ⟨hfit, hsum, a, b, hobj, hpa, hb1, hb2, hsp⟩ := hli.targets (o := o.m.rw) (show RW.PagesOk (c.part i).pages from ⟨hcp.sl, hcp.l32, hcp.l24⟩) _ _ hwc
    rw [Direct.rw_pages hlay hsh] at hobj
    have hL := Nat.two_pow_pos (c.part i).pages.lpage
    have hge : pos / 2 ^ (c.part i).pages.lpage * 2 ^ (c.part i).pages.lpage ≤ pos := Nat.div_mul_le_self _ _
    have hlt2 : pos < pos / 2 ^ (c.part i).pages.lpage * 2 ^ (c.part i).pages.lpage + 2 ^ (c.part i).pages.lpage := by
      have := Nat.lt_div_mul_add hL (a := pos)
      omega
    generalize pos / 2 ^ (c.part i).pages.lpage * 2 ^ (c.part i).pages.lpage = off0 at *
    have hmid : off0 ≤ p0 := by
      have g1' := g1
      rw [hobj, placed_append, placed_append] at g1'
      rcases List.mem_append.1 g1' with h | h
      · rcases List.mem_append.1 h with h | h
        · have := placed_bound h
          omega
        · have := (placed_bound h).1
          omega
      · have := (placed_bound h).1
        rw [RW.psum_append] at this
        omega
    have := hpart hmid (by omega) j g2 (by omega)
    rwa [show p0 + j = pos by omega] at this

theorem exec_suffix {S : Srv} {h : List Http.Ev} (hx : Exec S h) : ∀ {a b : List Http.Ev}, h = a ++ b → Exec S b := by
  induction hx with
  | nil => intro a b he; obtain ⟨_, rfl⟩ := List.append_eq_nil_iff.1 he.symm; exact .nil
  | issue hx h1 h2 ih =>
    intro a b he
    cases a with
    | nil => simp only [List.nil_append] at he; rw [← he]; exact .issue hx h1 h2
    | cons x a => simp only [List.cons_append, List.cons.injEq] at he; exact ih he.2
  | create hx h1 h2 h3 h4 h5 ih =>
    intro a b he
    cases a with
    | nil => simp only [List.nil_append] at he; rw [← he]; exact .create hx h1 h2 h3 h4 h5
    | cons x a => simp only [List.cons_append, List.cons.injEq] at he; exact ih he.2
  | write hx h1 h2 h3 h4 h5 ih =>
    intro a b he
    cases a with
    | nil => simp only [List.nil_append] at he; rw [← he]; exact .write hx h1 h2 h3 h4 h5
    | cons x a => simp only [List.cons_append, List.cons.injEq] at he; exact ih he.2
  | commit hx h1 h2 h3 h4 h5 ih =>
    intro a b he
    cases a with
    | nil => simp only [List.nil_append] at he; rw [← he]; exact .commit hx h1 h2 h3 h4 h5
    | cons x a => simp only [List.cons_append, List.cons.injEq] at he; exact ih he.2

/-- if a commit request carried the upload token that was handed out for the upload, or the object has one part, then every
part was acknowledged -/
theorem committed_parts {S : Srv} {h : List Http.Ev} (hx : Exec S h) {tok : Tok} {key key' : Bytes} {size claimed : Nat}
    (hcr : .created tok key' size ∈ h) (hcm : .committed tok key claimed ∈ h) (hcl : claimed = size ∨ size ≤ 2 ^ S.pages.lpage) :
    AllPartsAcked S h tok size := by
  obtain ⟨a, b, rfl⟩ := List.append_of_mem hcm
  have hb := exec_suffix hx rfl
  obtain ⟨k2, s2, hcr2⟩ := committed_created hb (List.mem_cons_self)
  simp only [List.mem_cons, reduceCtorEq, false_or] at hcr2
  have hcr3 : Http.Ev.created tok k2 s2 ∈ a ++ .committed tok key claimed :: b := by simp [hcr2]
  obtain ⟨_, rfl⟩ := (Http.exec_inv hx).once _ _ _ _ _ hcr hcr3
  intro off h1 h2
  have := (C42_all_parts_acked_partial S b tok key k2 size claimed hb hcr2).1 hcl off h1 h2
  simp [this]

/-- **C72 (every byte of a visible object was uploaded for it).** At every moment of every execution of the server — any
requests from any clients, interleaved in any way, device writes torn at any byte, the process killed and restarted at any
point the rules of C29 allow — every byte of a visible object was sent, as this byte of this object, in a write request
that was let through, provided the request that committed the object carried the upload token handed out for it, or
the object has a single part. Missing: a write receipt of the upload is accepted in place of its upload token
(`C72_violated_stale_bytes`). -/
theorem C72_every_byte_uploaded_partial {c : CCfg} {S : Srv} (hc : COk c) (hn : c.n ≤ 2 ^ 64) (hS : ∀ i, i < c.n → S.pages = (c.part i).pages) {x : Site} (hx : Serves c S x)
    {i : Nat} (hlt : i < c.n) {o : Obj} (hu : Direct.InUse (x.s i) o) :
    ∃ id, x.origin i o.id = some id ∧ .created ⟨id, i⟩ o.m.key o.m.size ∈ x.h ∧ (∃ key claimed, .committed ⟨id, i⟩ key claimed ∈ x.h) ∧
      ((∃ key, .committed ⟨id, i⟩ key o.m.size ∈ x.h) ∨ o.m.size ≤ 2 ^ (c.part i).pages.lpage →
        ∀ lay, calcObjectLayoutDirect (c.part i).pages o.m.size = some lay → ∀ pos, pos < o.m.size →
          ∃ b, (RW.contents (c.part i).pages lay (x.s i).dev o.m.rw)[pos]? = some b ∧ Uploaded (x.at i) id pos b) := by
  obtain ⟨id, hor, hcr, ⟨key, claimed, hcm⟩, hall⟩ := C72_acked_parts_hold_uploaded_bytes_partial hc hn hS hx hlt hu
  refine ⟨id, hor, hcr, ⟨key, claimed, hcm⟩, ?_⟩
  intro hcl lay hlay pos hpos
  have hi := serves_inv hc hn hS hx i hlt
  have hparts : AllPartsAcked S x.h ⟨id, i⟩ o.m.size := by
    rcases hcl with ⟨key', h⟩ | h
    · exact committed_parts hi.exec hcr h (Or.inl rfl)
    · exact committed_parts hi.exec hcr hcm (Or.inr (by rw [hS i hlt]; exact h))
  refine hall lay hlay pos hpos ⟨_, hparts _ ?_ ?_⟩
  · rw [hS i hlt]; exact Nat.mul_mod_left _ _
  · have : pos / 2 ^ (c.part i).pages.lpage * 2 ^ (c.part i).pages.lpage ≤ pos := Nat.div_mul_le_self _ _
    omega

/-- what a successful GET returns is a piece of the object, starting where the headers say -/
theorem httpRead_body {pages : Pages} (hp : RW.PagesOk pages) {o : RW.Obj} {dev : Mem} {lay : ObjectLayout}
    (hlay : calcObjectLayoutDirect pages o.size = some lay) {range : Option (List Char)} {r : ReadResp}
    (h : httpRead pages o dev range = some (.ok r)) :
    ∃ n, r.contentRange.1 + n ≤ o.size ∧ r.body = ((RW.contents pages lay dev o).drop r.contentRange.1).take n := by
  unfold httpRead at h
  split at h
  · cases h
  · rename_i start stop? hro
    by_cases hbad : start > stop?.getD o.size ∨ start > o.size ∨ stop?.getD o.size > o.size
    · simp only [RW.opReadDirect, hlay, if_pos hbad] at h
      cases h
    · obtain ⟨cs, e1, e2, _⟩ := C18_direct_read_exact pages hp o dev lay hlay 8192 start (stop?.getD o.size) (by decide) stop? rfl
        (by omega) (by omega) (o.size + 1) (by omega)
      rw [e1] at h
      simp only [Option.some.injEq, Except.ok.injEq] at h
      subst h
      exact ⟨stop?.getD o.size - start, by simp only; omega, e2⟩

/-- **C72 (reading).** Every byte that a read of an object in use returns — whole object or any range — was uploaded for this
object at the position the response says. An object stays in use while a read of it goes on (`C29`), so this holds for every page
a long read fetches, at the moment it is fetched. -/
theorem C72_read_partial {c : CCfg} {S : Srv} (hc : COk c) (hn : c.n ≤ 2 ^ 64) (hS : ∀ i, i < c.n → S.pages = (c.part i).pages) {x : Site} (hx : Serves c S x)
    {i : Nat} (hlt : i < c.n) {o : Obj} (hu : Direct.InUse (x.s i) o) :
    ∃ id, x.origin i o.id = some id ∧ .created ⟨id, i⟩ o.m.key o.m.size ∈ x.h ∧ (∃ key claimed, .committed ⟨id, i⟩ key claimed ∈ x.h) ∧
      ((∃ key, .committed ⟨id, i⟩ key o.m.size ∈ x.h) ∨ o.m.size ≤ 2 ^ (c.part i).pages.lpage →
        ∀ range r, httpRead (c.part i).pages o.m.rw (x.s i).dev range = some (.ok r) →
          ∀ j b, r.body[j]? = some b → Uploaded (x.at i) id (r.contentRange.1 + j) b) := by
  obtain ⟨id, h0, h1, h2, h3⟩ := C72_every_byte_uploaded_partial hc hn hS hx hlt hu
  refine ⟨id, h0, h1, h2, ?_⟩
  intro hcl range r hr j b hb
  cases hlay : calcObjectLayoutDirect (c.part i).pages o.m.rw.size with
  | none =>
    unfold httpRead at hr
    split at hr
    · cases hr
    · simp [RW.opReadDirect, hlay] at hr
  | some lay =>
    obtain ⟨n, hnn, hbody⟩ := httpRead_body (show RW.PagesOk (c.part i).pages from ⟨(hc i hlt).sl, (hc i hlt).l32, (hc i hlt).l24⟩) hlay hr
    rw [hbody] at hb
    have hin : j < n := by
      by_contra hge
      rw [List.getElem?_eq_none (by rw [List.length_take]; omega)] at hb
      cases hb
    rw [List.getElem?_take_of_lt hin, List.getElem?_drop] at hb
    have hsz : o.m.rw.size = o.m.size := rfl
    obtain ⟨b', e1, e2⟩ := h3 hcl lay hlay (r.contentRange.1 + j) (by omega)
    rw [hb] at e1
    simp only [Option.some.injEq] at e1
    rw [e1]; exact e2

/-- what a successful GET was answered with -/
theorem get_ok {c : CCfg} {S : Srv} {x : Site} {now : Nat} {path : Bytes} {range : Option (List Char)} {t : List Char} {r : ReadResp}
    (h : x.get c S now path range t = some (.ok r)) : ∃ k i o, parseKey path = some k ∧ c.owner k = some i ∧ (x.s i).committed k = some o ∧
      httpRead (c.part i).pages o.m.rw (x.s i).dev range = some (.ok r) := by
  unfold Site.get at h
  split at h
  · cases h
  · rename_i key a b hpre
    split at h
    · cases h
    rename_i i hi
    split at h
    · cases h
    rename_i o ho
    refine ⟨key, i, o, ?_, hi, ho, h⟩
    simp only [preflight] at hpre
    split at hpre
    · cases hpre
    rename_i k hk
    split at hpre
    · cases hpre
    split at hpre
    · cases hpre
    simp only [Except.ok.injEq, Call.read.injEq] at hpre
    rw [hk, hpre.1]
  · cases h

/-- **C72 (GET).** A successful GET of a key, whole object or any range, answers with an object that was created for this key in the
partition of this key and committed, and every byte of the body was uploaded for this object at the position the response says. -/
theorem C72_get_partial {c : CCfg} {S : Srv} (hc : COk c) (hn : c.n ≤ 2 ^ 64) (hS : ∀ i, i < c.n → S.pages = (c.part i).pages) {x : Site} (hx : Serves c S x)
    {now : Nat} {path : Bytes} {range : Option (List Char)} {t : List Char} {r : ReadResp} (h : x.get c S now path range t = some (.ok r)) :
    ∃ k i id size, parseKey path = some k ∧ c.owner k = some i ∧ .created ⟨id, i⟩ k size ∈ x.h ∧ (∃ key claimed, .committed ⟨id, i⟩ key claimed ∈ x.h) ∧
      ((∃ key, .committed ⟨id, i⟩ key size ∈ x.h) ∨ size ≤ 2 ^ (c.part i).pages.lpage →
        ∀ j b, r.body[j]? = some b → Uploaded (x.at i) id (r.contentRange.1 + j) b) := by
  obtain ⟨k, i, o, h1, h2, h3, h4⟩ := get_ok h
  have hlt := owner_lt h2
  have hi := serves_inv hc hn hS hx i hlt
  have hkey : o.m.key = k := (calm_facts (hc i hlt) hi.calm).id.comKey _ _ h3
  have hu : Direct.InUse (x.s i) o := Or.inl (by rw [hkey]; exact h3)
  obtain ⟨id, g0, g1, g3, g4⟩ := C72_read_partial hc hn hS hx hlt hu
  rw [hkey] at g1
  exact ⟨k, i, id, o.m.size, h1, h2, g1, g3, fun hcl => g4 hcl range r h4⟩

/-- **C72 (round trip).** If every upload that was ever begun for key `k` was an upload of `D` — its size is that of `D`, what was sent
for it agrees with `D`, and it was committed, if at all, with its own upload token (or `D` is one part) — then a GET of `k` answers with
`D` or does not succeed. -/
theorem C72_round_trip_partial {c : CCfg} {S : Srv} (hc : COk c) (hn : c.n ≤ 2 ^ 64) (hS : ∀ i, i < c.n → S.pages = (c.part i).pages) {x : Site} (hx : Serves c S x)
    {D k : Bytes}
    (hD : ∀ id i size, .created ⟨id, i⟩ k size ∈ x.h → D.length = size ∧
      (∀ key claimed, .committed ⟨id, i⟩ key claimed ∈ x.h → claimed = size ∨ size ≤ 2 ^ (c.part i).pages.lpage) ∧
      ∀ off body, (id, off, body) ∈ x.sent i → ∀ j b, (received body)[j]? = some b → D[off + j]? = some b)
    {now : Nat} {path : Bytes} (hk : parseKey path = some k) {t : List Char} {r : ReadResp} (h : x.get c S now path none t = some (.ok r)) :
    r.status = 200 ∧ r.contentLength = D.length ∧ r.body = D := by
  obtain ⟨k', i, o, h1, h2, h3, h4⟩ := get_ok h
  rw [hk] at h1
  simp only [Option.some.injEq] at h1
  subst h1
  have hlt := owner_lt h2
  have hi := serves_inv hc hn hS hx i hlt
  have hkey : o.m.key = k := (calm_facts (hc i hlt) hi.calm).id.comKey _ _ h3
  have hu : Direct.InUse (x.s i) o := Or.inl (by rw [hkey]; exact h3)
  obtain ⟨id, _, g1, ⟨key, claimed, g2⟩, g3⟩ := C72_every_byte_uploaded_partial hc hn hS hx hlt hu
  rw [hkey] at g1
  obtain ⟨d1, d2, d3⟩ := hD id i _ g1
  have hcl : (∃ key, .committed ⟨id, i⟩ key o.m.size ∈ x.h) ∨ o.m.size ≤ 2 ^ (c.part i).pages.lpage := by
    rcases d2 key claimed g2 with h | h
    · exact Or.inl ⟨key, h ▸ g2⟩
    · exact Or.inr h
  have hp : RW.PagesOk (c.part i).pages := ⟨(hc i hlt).sl, (hc i hlt).l32, (hc i hlt).l24⟩
  cases hlay : calcObjectLayoutDirect (c.part i).pages o.m.rw.size with
  | none =>
    unfold httpRead at h4
    split at h4
    · cases h4
    · simp [RW.opReadDirect, hlay] at h4
  | some lay =>
    obtain ⟨r', e1, e2, e3, e4⟩ := C44_whole_object (c.part i).pages hp o.m.rw (x.s i).dev lay hlay
    rw [h4] at e1
    simp only [Option.some.injEq, Except.ok.injEq] at e1
    subst e1
    refine ⟨e2, by rw [e3, d1]; rfl, ?_⟩
    rw [e4]
    have hsz : o.m.rw.size = o.m.size := rfl
    apply List.ext_getElem?
    intro j
    by_cases hj : j < o.m.size
    · obtain ⟨b, g4, off, body, g5, g6, g7⟩ := g3 hcl lay hlay j hj
      rw [List.getElem?_take_of_lt (by omega), g4, ← d3 off body g5 (j - off) b g7]
      congr 1; omega
    · rw [List.getElem?_eq_none (by rw [List.length_take]; omega), List.getElem?_eq_none (by omega)]

/-! ## Runs -/

/-- a write request for page `pg` of the upload, with the body in two chunks, alone -/
def putObj (id off pg : Nat) (d : Bytes) : List WCmd :=
  [.put id off [.ok (d.take 60), .ok (d.drop 60)], .chunk, .chunk, .write 0 pg, .written 0, .ack]

/-- the commands, at partition `i` -/
def inPart (i : Nat) (l : List WCmd) : List SCmd := l.map (.at i)

/-- an object of two parts: the write of part 1 is on its way to the device when the server crashes, while another object is uploaded in
the other partition; it is written again after the restart, then part 0; commit with both receipts; another restart -/
def wHonest : List SCmd := inPart 1 (postObj [97] 256 5) ++ inPart 0 (postObj [98] 128 5) ++
  inPart 1 [.put 5 128 [.ok (List.replicate 128 7)], .chunk, .write 0 1] ++ inPart 0 (putObj 5 0 0 (List.replicate 128 9)) ++ [.restart false] ++
  inPart 1 (putObj 5 128 1 (List.replicate 128 7)) ++ inPart 0 (commitObj 5 128 4) ++
  inPart 1 (putObj 5 0 0 (List.replicate 128 1)) ++ inPart 1 (commitObj 5 256 9) ++ [.restart true]

/-- hypotheses met, and the conclusion is about a real answer: the run above, and GET of "a" -/
example : COk wclu ∧ wclu.n ≤ 2 ^ 64 ∧ (∀ i, i < wclu.n → wSrv.pages = (wclu.part i).pages) ∧ ∃ x, Serves wclu wSrv x ∧
    (∀ id i size, .created ⟨id, i⟩ [97] size ∈ x.h → (List.replicate 128 (1 : Byte) ++ List.replicate 128 7).length = size ∧
      (∀ key claimed, .committed ⟨id, i⟩ key claimed ∈ x.h → claimed = size ∨ size ≤ 2 ^ (wclu.part i).pages.lpage) ∧
      ∀ off body, (id, off, body) ∈ x.sent i → ∀ j b, (received body)[j]? = some b → (List.replicate 128 (1 : Byte) ++ List.replicate 128 7)[off + j]? = some b) ∧
    parseKey [47, 97] = some [97] ∧ ∃ r, x.get wclu wSrv 5 [47, 97] none (newToken wSrv (.read [97]) 100) = some (.ok r) := by
  refine ⟨wclu_ok.1, wclu_ok.2.1, wclu_ok.2.2, ?_⟩
  have h : (wsite wHonest).map (fun x =>
      x.h.all (fun e => match e with
        | .created tok k size => decide (k = [97] → tok.id = 5 ∧ tok.part = 1 ∧ size = 256)
        | .committed tok _ claimed => decide (tok.id = 5 ∧ tok.part = 1 → claimed = 256)
        | _ => true) &&
      ((x.sent 1).all (fun y => decide (y.1 = 5) && (List.range (received y.2.2).length).all (fun j =>
        decide ((List.replicate 128 (1 : Byte) ++ List.replicate 128 7)[y.2.1 + j]? = (received y.2.2)[j]?))) &&
      (match x.get wclu wSrv 5 [47, 97] none (newToken wSrv (.read [97]) 100) with | some (.ok _) => true | _ => false))) = some true := by
    decide +kernel
  obtain ⟨x, h1, h⟩ := Option.map_eq_some_iff.1 h
  simp only [Bool.and_eq_true, decide_eq_true_eq, List.all_eq_true, List.mem_range] at h
  obtain ⟨e1, e2, e3⟩ := h
  refine ⟨x, wsite_ok h1, ?_, by decide +kernel, ?_⟩
  · intro id i size hm
    have := e1 _ hm
    simp only [decide_eq_true_eq] at this
    obtain ⟨rfl, rfl, rfl⟩ := this trivial
    refine ⟨by decide +kernel, ?_, ?_⟩
    · intro key claimed hm
      have := e1 _ hm
      simp only [decide_eq_true_eq] at this
      exact Or.inl (this ⟨trivial, trivial⟩)
    · intro off body hm j b hb
      have := (e2 _ hm).2 j (List.getElem?_eq_some_iff.1 hb).1
      simp only at this
      rw [this]; exact hb
  · split at e3 <;> [rename_i r hr; cases e3]
    exact ⟨r, hr⟩

/-- key "a" held 256 bytes and was deleted; of an upload of 256 bytes for key "c" only the first half is written, and the
commit request shows the receipt for this half in the place of the upload token -/
def wSteal : List SCmd := inPart 1 (postObj [97] 256 5 ++ putObj 5 0 0 (List.replicate 128 1) ++ putObj 5 128 1 (List.replicate 128 7) ++
  commitObj 5 256 9 ++ deleteObj [97] ++ postObj [99] 256 6 ++ putObj 6 0 0 (List.replicate 128 2) ++ commitObj 6 0 12)

/-- **C72 is violated** by a client that is allowed to create, write, commit and read only key "c", with every rule of C29 kept:
a GET of the second half of "c" returns the second half of the deleted object "a", though nobody ever uploaded a byte for the
second half of "c". -/
theorem C72_violated_stale_bytes : ∃ x, COk wclu ∧ wclu.n ≤ 2 ^ 64 ∧ (∀ i, i < wclu.n → wSrv.pages = (wclu.part i).pages) ∧ Serves wclu wSrv x ∧
    (x.s 1).committed [97] = none ∧
    (5, 128, [.ok (List.replicate 60 7), .ok (List.replicate 68 7)]) ∈ x.sent 1 ∧ .created ⟨5, 1⟩ [97] 256 ∈ x.h ∧
    (∀ tok key n, .created tok key n ∈ x.h → key = [99] → tok = ⟨6, 1⟩) ∧ (∀ pos b, 128 ≤ pos → ¬ Uploaded (x.at 1) 6 pos b) ∧
    ∃ r, x.get wclu wSrv 5 [47, 99] (some (rangeText (some 128) none)) (newToken wSrv (.read [99]) 100) = some (.ok r) ∧
      r.status = 206 ∧ r.body = List.replicate 128 7 := by
  have h : (wsite wSteal).map (fun x =>
      decide ((x.s 1).committed [97] = none) && ((x.sent 1).any (fun y => decide (y.1 = 5 ∧ y.2.1 = 128) && match y.2.2 with
        | [.ok a, .ok b] => decide (a = List.replicate 60 7 ∧ b = List.replicate 68 7)
        | _ => false) &&
      (decide (.created ⟨5, 1⟩ [97] 256 ∈ x.h) &&
      (x.h.all (fun e => match e with | .created t k _ => decide (k = [99] → t = ⟨6, 1⟩) | _ => true) &&
      ((x.sent 1).all (fun y => decide (y.1 = 6 → y.2.1 + (received y.2.2).length ≤ 128)) &&
      (match x.get wclu wSrv 5 [47, 99] (some (rangeText (some 128) none)) (newToken wSrv (.read [99]) 100) with
        | some (.ok r) => decide (r.status = 206 ∧ r.body = List.replicate 128 7)
        | _ => false)))))) = some true := by
    decide +kernel
  obtain ⟨x, h1, h⟩ := Option.map_eq_some_iff.1 h
  simp only [Bool.and_eq_true, decide_eq_true_eq, List.all_eq_true, List.any_eq_true] at h
  obtain ⟨e1, ⟨y, hy, ⟨e2, e2'⟩, e3⟩, e4, e5, e6, e8⟩ := h
  refine ⟨x, wclu_ok.1, wclu_ok.2.1, wclu_ok.2.2, wsite_ok h1, e1, ?_, e4, ?_, ?_, ?_⟩
  · obtain ⟨a, b, l⟩ := y
    simp only at e2 e2' e3
    split at e3 <;> [skip; cases e3]
    simp only [decide_eq_true_eq] at e3
    rw [e2, e2', e3.1, e3.2] at hy
    exact hy
  · intro tok key n hm hk
    have := e5 _ hm
    simp only [decide_eq_true_eq] at this
    exact this hk
  · rintro pos b hp ⟨off, body, g1, g2, g3⟩
    have h6 := e6 _ g1 rfl
    simp only at h6
    have := (List.getElem?_eq_some_iff.1 g3).1
    omega
  · split at e8 <;> [rename_i r hr; cases e8]
    simp only [decide_eq_true_eq] at e8
    exact ⟨r, hr, e8⟩

end Props
end Blobd
