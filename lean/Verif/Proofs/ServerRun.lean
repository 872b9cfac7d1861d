import Verif.Proofs.Server
import Verif.Proofs.DirectCalm
import Verif.Props.HttpRead
import Verif.Props.DirectCluster
/-! Runs of the server that can be computed. -/
set_option autoImplicit false
namespace Blobd
namespace Server
open Direct Props
open MP (Bytes)

variable {c : SCfg} {S : Http.Srv} {part : Nat}

theorem write_moved {m : Mem} {off : Nat} {d : List Byte} {x : Nat} (h : m.write off d x ≠ m x) : off ≤ x ∧ x < off + d.length := by
  by_contra hne
  refine h (Mem.write_out ?_)
  omega

theorem exec_torn {s s' : DSt} {cmd : Cmd} (h : exec c s cmd = some s') (hn : ∀ rev, cmd ≠ .restart rev) (ho : ∀ i, cmd ≠ .orphanDone i) : Torn s s' := by
  have hd : s'.dev = s.dev ∨ (∃ th ∈ s.threads, ∃ o t page, th.pc = .createMeta o t page ∧ s'.dev = s.dev.write t.metaOff page) ∨
      ∃ x ∈ s.writers, s'.dev = s.dev.write x.off x.data := by
    cases cmd with
    | restart rev => exact absurd rfl (hn rev)
    | orphanDone i => exact absurd rfl (ho i)
    | metaWritten i =>
      simp only [exec] at h
      split at h <;> [cases h; rename_i th hth]
      split at h <;> [rename_i o t page hpc; cases h]
      cases h
      exact Or.inr (Or.inl ⟨th, List.mem_of_getElem? hth, o, t, page, hpc, rfl⟩)
    | writeDone i =>
      simp only [exec] at h
      split at h <;> [cases h; rename_i x hx]
      cases h
      exact Or.inr (Or.inr ⟨x, List.mem_of_getElem? hx, rfl⟩)
    | page i =>
      simp only [exec, Option.map_eq_some_iff] at h
      obtain ⟨_, _, rfl⟩ := h
      exact Or.inl rfl
    | signal =>
      simp only [exec, Option.map_eq_some_iff] at h
      obtain ⟨_, _, rfl⟩ := h
      exact Or.inl rfl
    | _ =>
      simp only [exec] at h
      left
      (repeat' (split at h)) <;> first | (cases h; done) | (cases h; rfl)
  intro x hx
  rcases hd with hd | ⟨th, hth, o, t, page, hpc, hd⟩ | ⟨y, hy, hd⟩
  · exact absurd (by rw [hd]) hx
  · refine Or.inl ⟨th, hth, o, t, page, hpc, ?_⟩
    rw [hd] at hx
    exact write_moved hx
  · right
    rw [hd] at hx ⊢
    obtain ⟨h1, h2⟩ := write_moved hx
    refine ⟨y, hy, h1, ?_⟩
    have hlt : x - y.off < y.data.length := by omega
    rw [List.getElem?_eq_getElem hlt]
    have := write_get (dev := s.dev) (off := y.off) (List.getElem?_eq_getElem hlt)
    rw [show y.off + (x - y.off) = x by omega] at this
    rw [this]

/-! ## Commands -/

inductive WCmd
  | issue (a : Http.Action)
  | store (cmd : Cmd)
  | created (i : Nat)
  | put (id off : Nat) (body : List (Except Unit Bytes))
  | chunk
  | write (h pg : Nat)
  | written (i : Nat)
  | ack
  | commit (id claimed : Nat)
  | publish (i new : Nat)

/-- store commands that leave nothing to attribute -/
def plain : Cmd → Bool
  | .createData .. | .createMeta .. | .metaWritten .. | .createInsert .. | .commitSeal .. | .commitUpdate .. | .commitFinish .. |
    .delete .. | .reapTuple .. | .reaped .. | .snapshot | .page .. | .signal => true
  | _ => false

def validB : Http.Action → Bool
  | .batchCreate => true
  | .commit k | .delete k | .inspect k | .read k | .write k => decide (k.length < 2 ^ 32)
  | .create k n => decide (k.length < 2 ^ 32) && decide (n < 2 ^ 64)

theorem validB_ok {a : Http.Action} (h : validB a = true) : a.Valid := by
  cases a <;> simp_all [validB, Http.Action.Valid]

/-- the receipts for parts `0 .. n - 1`, as a header -/
def rcText (S : Http.Srv) (tok : Http.Tok) : Nat → Nat → List Char
  | _, 0 => []
  | p, 1 => Http.writeReceipt S tok p
  | p, n + 2 => Http.writeReceipt S tok p ++ ',' :: rcText S tok (p + 1) (n + 1)

theorem splitComma_app {a b : List Char} (h : ',' ∉ a) : Http.splitComma (a ++ ',' :: b) = a :: Http.splitComma b := by
  induction a with
  | nil => simp [Http.splitComma]
  | cons x a ih =>
    simp only [List.mem_cons, not_or] at h
    simp only [List.cons_append, Http.splitComma, if_neg (Ne.symm h.1), ih h.2]

theorem split_rc (hcm : ∀ m, ',' ∉ S.b64.enc m) {tok : Http.Tok} : ∀ {n p : Nat},
    Http.splitComma (rcText S tok p (n + 1)) = (List.range' p (n + 1)).map (Http.writeReceipt S tok) := by
  intro n
  induction n with
  | zero => intro p; simp only [rcText, splitComma_no _ (hcm _), Http.writeReceipt]; rfl
  | succ n ih =>
    intro p
    rw [rcText, splitComma_app (a := Http.writeReceipt S tok p) (hcm _), ih]
    rfl

def relB (S : Http.Srv) (h : List Http.Ev) (m : Bytes) : Bool := h.any (fun e => decide (e.message S.pages = some m))

theorem relB_ok {h : List Http.Ev} {m : Bytes} (hr : relB S h m = true) : Http.released S.pages h m := by
  simp only [relB, List.any_eq_true, decide_eq_true_eq] at hr
  exact hr

def wexec (c : SCfg) (S : Http.Srv) (part : Nat) (w : World) : WCmd → Option World
  | .issue a => if validB a then some { w with h := .issued a 100 :: w.h } else none
  | .store cmd => if plain cmd then (calmExec c w.s cmd).map (fun s' => { w with s := s' }) else none
  | .created i =>
    match w.s.threads[i]? with
    | none => none
    | some th =>
      match th.pc with
      | .createTuple o _ =>
        if Http.parseKey (47 :: o.m.key) = some o.m.key ∧ .issued (.create o.m.key o.m.size) 100 ∈ w.h ∧ o.m.size < 2 ^ 64 ∧ o.id < 2 ^ 128 then
          (calmExec c w.s (.created i)).map (fun s' => { w with s := s', h := .created ⟨o.id, part⟩ o.m.key o.m.size :: w.h })
        else none
      | _ => none
  | .put id off body =>
    match w.s.incomplete id with
    | none => none
    | some o =>
      match calcObjectLayoutDirect c.pages o.m.size with
      | none => none
      | some lay =>
        let len := min (2 ^ c.pages.lpage) (o.m.size - off)
        if Http.parseKey (47 :: o.m.key) = some o.m.key ∧ .issued (.write o.m.key) 100 ∈ w.h ∧ .created ⟨id, part⟩ o.m.key o.m.size ∈ w.h ∧
            off < 2 ^ 64 ∧ id < 2 ^ 128 ∧ o.m.size < 2 ^ 64 ∧ RW.writeCheck c.pages o.m.size off len = none then
          (calmExec c w.s (.openHandle id)).map (fun s' => { w with
            s := s'
            puts := w.puts ++ [⟨47 :: o.m.key, off, len, Http.uploadToken S ⟨id, part⟩ o.m.size, Http.newToken S (.write o.m.key) 100, body, 5, o, lay,
              body, [], 0, 0, none⟩]
            sent := (id, off, body) :: w.sent })
        else none
  | .chunk =>
    match w.puts with
    | [] => none
    | p :: post =>
      match p.busy, p.stream with
      | none, .ok c' :: rest => some { w with puts := { p with stream := rest, buf := p.buf ++ c' } :: post }
      | _, _ => none
  | .write h pg =>
    match w.puts with
    | [] => none
    | p :: post =>
      match p.busy, (p.targets c)[p.idx]?, w.s.handles[h]?, ((w.s.handles[h]?).bind (fun o => (o.m.dataPages c.pages)[pg]?)) with
      | none, some (amt, poff), some o, some (off, _) =>
        if amt ≤ p.buf.length ∧ o.id = p.o.id ∧ off = poff then
          (calmExec c w.s (.writeStart h pg (RW.blockDirect c.pages (fun _ => 0) (p.buf.take amt)))).map (fun s' => { w with
            s := s'
            puts := { p with busy := some (RW.blockDirect c.pages (fun _ => 0) (p.buf.take amt)) } :: post })
        else none
      | _, _, _, _ => none
  | .written i =>
    match w.puts with
    | [] => none
    | p :: post =>
      match p.busy, (p.targets c)[p.idx]?, w.s.writers[i]? with
      | some data, some (amt, poff), some x =>
        if x.id = p.o.id ∧ x.off = poff ∧ x.data = data then
          (calmExec c w.s (.writeDone i)).map (fun s' => { w with
            s := s'
            puts := { p with busy := none, buf := p.buf.drop amt, written := p.written + amt, idx := p.idx + 1 } :: post })
        else none
      | _, _, _ => none
  | .ack =>
    match w.puts with
    | [] => none
    | p :: post =>
      match p.busy, p.stream, p.buf with
      | none, [], [] => if p.written = p.len then some { w with puts := post, h := .acked ⟨p.o.id, part⟩ p.off p.len :: w.h } else none
      | _, _, _ => none
  | .commit id claimed =>
    match w.s.incomplete id with
    | none => none
    | some o =>
      if Http.parseKey (47 :: o.m.key) = some o.m.key ∧ .issued (.commit o.m.key) 100 ∈ w.h ∧ id < 2 ^ 128 ∧ claimed < 2 ^ 64 ∧
          relB S w.h (Http.encPair ⟨id, part⟩ claimed) = true ∧
          (List.range (max 1 (Http.partCount claimed (2 ^ S.pages.lpage)))).all (fun p => relB S w.h (Http.encPair ⟨id, part⟩ p)) = true then
        (calmExec c w.s (.commitClaim id false)).map (fun s' => { w with s := s', h := .committed ⟨id, part⟩ o.m.key claimed :: w.h })
      else none
  | .publish i new =>
    match w.s.threads[i]? with
    | none => none
    | some th =>
      match th.pc with
      | .commitSealed o _ => (calmExec c w.s (.commitPublish i new)).map (fun s' => { w with s := s', origin := upd w.origin new (some o.id) })
      | _ => none

theorem calmExec_runs {s s' : DSt} {cmd : Cmd} (hn : ∀ rev, cmd ≠ .restart rev) (ho : ∀ i, cmd ≠ .orphanDone i)
    (h : calmExec c s cmd = some s') : exec c s cmd = some s' ∧ Runs c s s' := by
  have he' : (exec c s cmd).bind (fun s' => if politeB c s s' then some s' else none) = some s' := by
    cases cmd <;> first | exact h | exact absurd rfl (hn _)
  obtain ⟨s1, h1, h2⟩ := Option.bind_eq_some_iff.1 he'
  split at h2 <;> [rename_i hb; cases h2]
  cases h2
  exact ⟨h1, exec_step h1 hn, politeB_ok hb, exec_torn h1 hn ho⟩

theorem plain_ok {s s' : DSt} {cmd : Cmd} (hp : plain cmd = true) (h : exec c s cmd = some s') :
    s'.writers = s.writers ∧ (s'.lin = s.lin ∨ ∃ e, s'.lin = s.lin ++ [e] ∧ ¬ Tracked e.2) := by
  cases cmd with
  | page i =>
    simp only [exec, Option.map_eq_some_iff] at h
    obtain ⟨_, _, rfl⟩ := h
    exact ⟨rfl, Or.inl rfl⟩
  | signal =>
    simp only [exec, Option.map_eq_some_iff] at h
    obtain ⟨_, _, rfl⟩ := h
    exact ⟨rfl, Or.inl rfl⟩
  | delete k want =>
    simp only [exec] at h
    split at h <;> [cases h; skip]
    split at h <;> [skip; cases h]
    cases h
    exact ⟨rfl, Or.inr ⟨_, rfl, fun h => h⟩⟩
  | createData | createMeta | metaWritten | createInsert | commitSeal | commitUpdate | commitFinish | reapTuple | reaped | snapshot =>
    simp only [exec] at h
    (repeat' (split at h)) <;> first | (cases h; done) | (cases h; exact ⟨rfl, Or.inl rfl⟩)
  | _ => cases hp

theorem wexec_ok (hpart : part < 2 ^ 64) (hcm : ∀ m, ',' ∉ S.b64.enc m) {w w' : World} {cmd : WCmd}
    (h : wexec c S part w cmd = some w') : WStep c S part w w' := by
  cases cmd with
  | issue a =>
    simp only [wexec] at h
    split at h <;> [rename_i hv; cases h]
    cases h
    exact (WStep.issue (validB_ok hv) (by decide))
  | store cmd =>
    simp only [wexec] at h
    split at h <;> [rename_i hv; cases h]
    obtain ⟨s', h1, rfl⟩ := Option.map_eq_some_iff.1 h
    obtain ⟨h2, h3⟩ := calmExec_runs (by rintro rev rfl; cases hv) (by rintro rev rfl; cases hv) h1
    obtain ⟨h4, h5⟩ := plain_ok hv h2
    exact (WStep.inner h3 h4 h5)
  | created i =>
    simp only [wexec] at h
    split at h <;> [cases h; rename_i th hth]
    split at h <;> [rename_i o tk hpc; cases h]
    split at h <;> [rename_i hb; cases h]
    obtain ⟨s', h1, rfl⟩ := Option.map_eq_some_iff.1 h
    obtain ⟨b1, b2, b3, b4⟩ := hb
    obtain ⟨h2, h3⟩ := calmExec_runs (by rintro rev ⟨⟩) (by rintro rev ⟨⟩) h1
    simp only [exec, hth, hpc] at h2
    split at h2 <;> [skip; cases h2]
    have hl : s'.lin = w.s.lin ++ [(th.call, .created o.id o.m)] := by cases h2; rfl
    exact (WStep.created (path := 47 :: o.m.key) (t := Http.newToken S (.create o.m.key o.m.size) 100) (now := 5)
      (unforged_of_issued S w.h _ (.create o.m.key o.m.size) 100 (by simp [Http.required, b1]) b2 (by decide) rfl (by simp) (by simp))
      (by simp [Http.preflight, b1, Http.verifyAuth_new S (now := 5) (e := 100) (by decide) (by decide)]) b3 b4 h3 hl)
  | put id off body =>
    simp only [wexec] at h
    split at h <;> [cases h; rename_i o ho]
    split at h <;> [cases h; rename_i lay hlay]
    split at h <;> [rename_i hb; cases h]
    obtain ⟨s', h1, rfl⟩ := Option.map_eq_some_iff.1 h
    obtain ⟨b1, b2, b3, b4, b5, b6, b7⟩ := hb
    obtain ⟨h2, h3⟩ := calmExec_runs (by rintro rev ⟨⟩) (by rintro rev ⟨⟩) h1
    simp only [exec, ho] at h2
    have hs' : s' = { w.s with handles := o :: w.s.handles } := by cases h2; rfl
    have hv : (⟨id, part⟩ : Http.Tok).Valid := ⟨b5, hpart⟩
    refine (WStep.putStart (path := 47 :: o.m.key) (up := Http.uploadToken S ⟨id, part⟩ o.m.size) (t := Http.newToken S (.write o.m.key) 100) (now := 5)
      (unforged_of_issued S w.h _ (.write o.m.key) 100 (by simp [Http.required, b1]) b2 (by decide) rfl ?_ (by simp)) ?_ b4 ho b7 hlay h3 hs')
    · intro path up rc t off len body hreq
      simp only [reduceCtorEq, false_or, Http.Req.write.injEq] at hreq
      exact ⟨⟨id, part⟩, o.m.size, hreq.2.2.2.1.symm, ⟨_, b3, rfl⟩⟩
    · simp [Http.preflight, b1, Http.verifyAuth_new S (now := 5) (e := 100) (by decide) (by decide), Http.parseUpload_uploadToken S hv b6]
  | chunk =>
    simp only [wexec] at h
    split at h <;> [cases h; rename_i p post hp]
    split at h <;> [rename_i c' rest hb hst; cases h]
    cases h
    exact (WStep.putChunk (pre := []) hp hb hst)
  | write hh pg =>
    simp only [wexec] at h
    split at h <;> [cases h; rename_i p post hp]
    split at h <;> [rename_i amt poff o off e hb ht hho hpg; cases h]
    split at h <;> [rename_i hbb; cases h]
    obtain ⟨b1, b2, rfl⟩ := hbb
    obtain ⟨s', h1, rfl⟩ := Option.map_eq_some_iff.1 h
    obtain ⟨h2, h3⟩ := calmExec_runs (by rintro rev ⟨⟩) (by rintro rev ⟨⟩) h1
    simp only [hho, Option.bind_some] at hpg
    simp only [exec, hho, hpg] at h2
    split at h2 <;> [skip; cases h2]
    rw [b2] at h2
    exact (WStep.putWrite (pre := []) (fun _ => 0) hp hb ht b1 h3 (by cases h2; rfl))
  | written i =>
    simp only [wexec] at h
    split at h <;> [cases h; rename_i p post hp]
    split at h <;> [rename_i data amt poff x hb ht hx; cases h]
    split at h <;> [rename_i hbb; cases h]
    obtain ⟨s', h1, rfl⟩ := Option.map_eq_some_iff.1 h
    obtain ⟨h2, h3⟩ := calmExec_runs (by rintro rev ⟨⟩) (by rintro rev ⟨⟩) h1
    simp only [exec, hx] at h2
    obtain ⟨xi, xo, xd⟩ := x
    obtain ⟨rfl, rfl, rfl⟩ := hbb
    exact (WStep.putWritten (pre := []) hp hb ht (split_at hx) h3 (by cases h2; rfl))
  | ack =>
    simp only [wexec] at h
    split at h <;> [cases h; rename_i p post hp]
    split at h <;> [rename_i h1 h2 h3; cases h]
    split at h <;> [rename_i h4; cases h]
    cases h
    exact (WStep.putAck (pre := []) hp h1 h2 h3 h4)
  | commit id claimed =>
    simp only [wexec] at h
    split at h <;> [cases h; rename_i o ho]
    split at h <;> [rename_i hb; cases h]
    obtain ⟨s', h1, rfl⟩ := Option.map_eq_some_iff.1 h
    obtain ⟨b1, b2, b3, b4, b5, b6⟩ := hb
    obtain ⟨h2, h3⟩ := calmExec_runs (by rintro rev ⟨⟩) (by rintro rev ⟨⟩) h1
    simp only [exec, ho] at h2
    have hl : s'.lin = w.s.lin ++ [(w.s.nextCall, .claimed id o.m)] := by cases h2; rfl
    have hv : (⟨id, part⟩ : Http.Tok).Valid := ⟨b3, hpart⟩
    have hpu := Http.parseUpload_uploadToken S hv b4
    simp only [List.all_eq_true, List.mem_range] at b6
    generalize hn : Http.partCount claimed (2 ^ S.pages.lpage) = n at b6
    refine (WStep.commit (path := 47 :: o.m.key) (up := Http.uploadToken S ⟨id, part⟩ claimed) (rc := rcText S ⟨id, part⟩ 0 n)
      (t := Http.newToken S (.commit o.m.key) 100) (now := 5) (claimed := claimed)
      (unforged_of_issued S w.h _ (.commit o.m.key) 100 (by simp [Http.required, b1]) b2 (by decide) rfl ?_ ?_) ?_ b1 hpu h3 hl)
    · intro path up rc t off len body hreq
      simp only [reduceCtorEq, or_false, Http.Req.commit.injEq] at hreq
      exact ⟨⟨id, part⟩, claimed, hreq.2.1.symm, relB_ok b5⟩
    · intro path up rc t tk cl part r m hreq hp hr hd hm
      simp only [Http.Req.commit.injEq] at hreq
      obtain ⟨rfl, rfl, rfl, rfl⟩ := hreq
      rw [hpu] at hp
      simp only [Option.some.injEq, Prod.mk.injEq] at hp
      obtain ⟨rfl, rfl⟩ := hp
      refine relB_ok (b6 part ?_)
      cases n with
      | zero =>
        have := (List.getElem?_eq_some_iff.1 hr).1
        simp only [rcText, Http.splitComma, List.length_singleton] at this
        omega
      | succ n =>
        rw [split_rc hcm] at hr
        have := (List.getElem?_eq_some_iff.1 hr).1
        simp only [List.length_map, List.length_range'] at this
        omega
    · have hrc : Http.verifyReceipts S (Http.splitComma (rcText S ⟨id, part⟩ 0 n)) ⟨id, part⟩ claimed = true := by
        simp only [Http.verifyReceipts, List.all_eq_true, List.mem_range, hn]
        intro p hp
        cases n with
        | zero => omega
        | succ n =>
          rw [split_rc hcm]
          simp [Http.receiptOk, hp, Http.writeReceipt, S.b64.dec_enc, S.mac_len]
      simp [Http.preflight, b1, Http.verifyAuth_new S (now := 5) (e := 100) (by decide) (by decide), hpu, hrc]
  | publish i new =>
    simp only [wexec] at h
    split at h <;> [cases h; rename_i th hth]
    split at h <;> [rename_i o ifne hpc; cases h]
    obtain ⟨s', h1, rfl⟩ := Option.map_eq_some_iff.1 h
    obtain ⟨h2, h3⟩ := calmExec_runs (by rintro rev ⟨⟩) (by rintro rev ⟨⟩) h1
    simp only [exec, hth, hpc] at h2
    split at h2 <;> [skip; cases h2]
    exact (WStep.publish (m := o.m) (call := th.call) (ifne := ifne) h3 (by cases h2; rfl))

/-- what a whole server does: a step of partition `i`, or a crash and a restart -/
inductive SCmd
  | at (i : Nat) (cmd : WCmd)
  | restart (rev : Bool)

def sexec (c : CCfg) (S : Http.Srv) (x : Site) : SCmd → Option Site
  | .at i cmd => if i < c.n then (wexec (c.part i) S i (x.at i) cmd).bind (fun w =>
      if (callKeys (x.s i) w.s).all (fun k => decide (c.owner k = some i)) then some (x.set i w) else none) else none
  | .restart rev => ((List.range c.n).mapM (fun i => calmExec (c.part i) (x.s i) (.restart rev))).map (fun l =>
      { x with s := fun i => l.getD i (x.s i), puts := fun _ => [] })

theorem mapM_get {α β : Type} {f : α → Option β} : ∀ {l : List α} {r : List β}, l.mapM f = some r → ∀ {i : Nat} {a : α}, l[i]? = some a →
    ∃ b, r[i]? = some b ∧ f a = some b := by
  intro l
  induction l with
  | nil => intro r _ i a h; simp at h
  | cons y l ih =>
    intro r hr i a h
    simp only [List.mapM_cons, Option.bind_eq_bind, Option.bind_eq_some_iff, Option.pure_def, Option.some.injEq] at hr
    obtain ⟨b, h1, r', h2, rfl⟩ := hr
    cases i with
    | zero => simp only [List.getElem?_cons_zero, Option.some.injEq] at h; subst h; exact ⟨b, rfl, h1⟩
    | succ i => exact ih h2 (by simpa using h)

theorem sexec_ok {c : CCfg} (hc : ∀ i, i < c.n → (c.part i).Ok) (hn : c.n ≤ 2 ^ 64) (hS : ∀ i, i < c.n → S.pages = (c.part i).pages)
    (hcm : ∀ m, ',' ∉ S.b64.enc m) {x x' : Site} (hx : Serves c S x) {cmd : SCmd} (h : sexec c S x cmd = some x') : Serves c S x' := by
  cases cmd with
  | «at» i cmd =>
    simp only [sexec] at h
    split at h <;> [rename_i hi; cases h]
    obtain ⟨w, h1, h2⟩ := Option.bind_eq_some_iff.1 h
    split at h2 <;> [rename_i hk; cases h2]
    cases h2
    exact .step i hx hi (wexec_ok (by omega) hcm h1) (by simpa only [List.all_eq_true, decide_eq_true_eq] using hk)
  | restart rev =>
    simp only [sexec, Option.map_eq_some_iff] at h
    obtain ⟨l, h1, rfl⟩ := h
    have key : ∀ i, i < c.n → ∃ order, NoReplacing (x.s i) ∧ order.Perm (diskTuples (c.part i).n (x.s i).ts) ∧
        load (c.part i) (x.s i) order = some (l.getD i (x.s i)) := by
      intro i hi
      obtain ⟨s', g1, g2⟩ := mapM_get h1 (i := i) (a := i) (by simp [hi])
      simp only [calmExec] at g2
      split at g2 <;> [rename_i hb; cases g2]
      obtain ⟨order, hp, hl⟩ := exec_restart (calm_facts (hc i hi) (serves_inv hc hn hS hx i hi).calm).reach g2
      refine ⟨order, noReplacingB_ok hb, hp, ?_⟩
      rw [show load (c.part i) (x.s i) order = some s' from hl, List.getD_eq_getElem?_getD, g1]
      rfl
    have : ∀ i, ∃ order, i < c.n → NoReplacing (x.s i) ∧ order.Perm (diskTuples (c.part i).n (x.s i).ts) ∧
        load (c.part i) (x.s i) order = some (l.getD i (x.s i)) := by
      intro i
      by_cases hi : i < c.n
      · obtain ⟨o, h⟩ := key i hi
        exact ⟨o, fun _ => h⟩
      · exact ⟨[], fun h => absurd h hi⟩
    choose order ho using this
    exact .restart order hx ho

def sexecs (c : CCfg) (S : Http.Srv) (x : Site) (cmds : List SCmd) : Option Site := cmds.foldlM (sexec c S) x

theorem sexecs_ok {c : CCfg} (hc : ∀ i, i < c.n → (c.part i).Ok) (hn : c.n ≤ 2 ^ 64) (hS : ∀ i, i < c.n → S.pages = (c.part i).pages)
    (hcm : ∀ m, ',' ∉ S.b64.enc m) {cmds : List SCmd} : ∀ {x x' : Site}, Serves c S x → sexecs c S x cmds = some x' → Serves c S x' := by
  induction cmds with
  | nil => intro w w' hw h; simp only [sexecs, List.foldlM_nil] at h; cases h; exact hw
  | cons y l ih =>
    intro w w' hw h
    simp only [sexecs, List.foldlM_cons, Option.bind_eq_bind, Option.bind_eq_some_iff] at h
    obtain ⟨w1, h1, h2⟩ := h
    exact ih (sexec_ok hc hn hS hcm hw h1) h2

/-! ## An example server -/

/-- a server on the example partition -/
def wSrv : Http.Srv where
  authEnabled := true
  mac := fun m => (m ++ List.replicate 32 0).take 32
  mac_len := by intro m; simp
  b64 := nibble64
  pages := wcfg.pages

theorem nibble_comma (m : Bytes) : ',' ∉ nibble64.enc m := by
  intro h
  simp only [nibble64, nibbleEnc, List.mem_flatMap, List.mem_cons, List.not_mem_nil, or_false] at h
  obtain ⟨x, _, h⟩ := h
  have hx := x.toNat_lt
  have h1 : (Char.ofNat (97 + x.toNat / 16)).toNat = 97 + x.toNat / 16 := toNat_ofNat_small (by omega)
  have h2 : (Char.ofNat (97 + x.toNat % 16)).toNat = 97 + x.toNat % 16 := toNat_ofNat_small (by omega)
  have h3 : (','.toNat) = 44 := rfl
  rcases h with h | h
  · rw [← h] at h1; omega
  · rw [← h] at h2; omega

/-- two partitions, keys divided by their first byte -/
def wsite (cmds : List SCmd) : Option Site :=
  (fresh wcfg (fun _ => 0)).bind (fun s => sexecs wclu wSrv ⟨fun _ => s, [], fun _ => [], fun _ => [], fun _ _ => none⟩ cmds)

theorem wclu_ok : (∀ i, i < wclu.n → (wclu.part i).Ok) ∧ wclu.n ≤ 2 ^ 64 ∧ ∀ i, i < wclu.n → wSrv.pages = (wclu.part i).pages :=
  ⟨fun _ _ => wcfg_ok, by decide, fun _ _ => rfl⟩

theorem wsite_ok {cmds : List SCmd} {x : Site} (h : wsite cmds = some x) : Serves wclu wSrv x := by
  obtain ⟨s0, h1, h2⟩ := Option.bind_eq_some_iff.1 h
  exact sexecs_ok wclu_ok.1 wclu_ok.2.1 wclu_ok.2.2 nibble_comma (.start (fun _ _ => ⟨_, h1⟩)) h2

/-- `POST`, alone, as thread 0 -/
def postObj (key : Bytes) (size id : Nat) : List WCmd :=
  [.issue (.create key size), .issue (.write key), .issue (.commit key), .store (.createData key size 7), .store (.createMeta 0 id), .store (.metaWritten 0),
    .store (.createInsert 0), .store .snapshot, .store (.page 0), .store .signal, .created 0]

/-- commit, alone, as thread 0 -/
def commitObj (id claimed new : Nat) : List WCmd :=
  [.commit id claimed, .store (.commitSeal 0), .publish 0 new, .store (.commitUpdate 0), .store .snapshot, .store (.page 0), .store .signal,
    .store (.commitFinish 0)]

/-- DELETE, alone, as thread 0 -/
def deleteObj (key : Bytes) : List WCmd := (doDelete key 0).map .store

end Server
end Blobd
