import Verif.Spec.DirectUpload
import Verif.Props.DirectDiscipline
import Verif.Proofs.DirectTokens
/-!
# C62: what was uploaded is what is read, across crashes

The whole path in the direct store: `create_object`, any number of `write_object` calls with their device writes, commit,
and reads at any later time, with other calls, crashes and restarts in between.
-/
set_option autoImplicit false
namespace Blobd
namespace Props
open Direct

theorem placed_mem {l : List (Nat × Nat)} : ∀ {pos0 pos off p : Nat}, (pos, off, p) ∈ placed pos0 l → (off, p) ∈ l := by
  induction l with
  | nil => intro _ _ _ _ h; cases h
  | cons q l ih =>
    intro pos0 pos off p h
    obtain ⟨o', p'⟩ := q
    simp only [placed, List.mem_cons, Prod.mk.injEq] at h
    rcases h with ⟨_, rfl, rfl⟩ | h
    · simp
    · exact List.mem_cons_of_mem _ (ih h)

/-- byte `i` of the pages lies in a placed page -/
theorem allBytes_get {dev : Mem} {l : List (Nat × Nat)} : ∀ {pos0 i : Nat}, i < (RW.allBytes dev l).length →
    ∃ pos off p j, (pos, off, p) ∈ placed pos0 l ∧ j < 2 ^ p ∧ pos + j = pos0 + i ∧ (RW.allBytes dev l)[i]? = some (dev (off + j)) := by
  induction l with
  | nil => intro _ i h; simp [RW.allBytes] at h
  | cons q l ih =>
    intro pos0 i h
    obtain ⟨o', p'⟩ := q
    have e : RW.allBytes dev ((o', p') :: l) = dev.read o' (2 ^ p') ++ RW.allBytes dev l := rfl
    have hl : (dev.read o' (2 ^ p')).length = 2 ^ p' := by simp [read_getElem]
    rw [e] at h ⊢
    by_cases hi : i < 2 ^ p'
    · refine ⟨pos0, o', p', i, by simp [placed], hi, rfl, ?_⟩
      rw [List.getElem?_append_left (by omega), read_getElem]
      simp [hi]
    · rw [List.length_append] at h
      obtain ⟨pos, off, p, j, h1, h2, h3, h4⟩ := ih (pos0 := pos0 + 2 ^ p') (i := i - 2 ^ p') (by omega)
      refine ⟨pos, off, p, j, by simp [placed, h1], h2, by omega, ?_⟩
      rw [List.getElem?_append_right (by omega), hl]
      exact h4

theorem moves_calm {c : SCfg} {s s' : DSt} (h : Calm c s) (hm : Moves c s s') : Calm c s' := by
  rcases hm with ⟨h1, h2⟩ | ⟨h1, order, h2, h3⟩
  · exact h.step h1 h2
  · exact h.restart order h1 h2 h3

theorem run_calm {c : SCfg} {tr : Nat → DSt} {n : Nat} (h0 : Calm c (tr 0)) (hr : ∀ i, i < n → Moves c (tr i) (tr (i + 1))) :
    ∀ {i}, i ≤ n → Calm c (tr i) := by
  intro i
  induction i with
  | zero => intro _; exact h0
  | succ i ih => intro hi; exact moves_calm (ih (by omega)) (hr i (by omega))

theorem inUse_shape {c : SCfg} (hc : c.Ok) {s : DSt} (h : Calm c s) {k : List Byte} {o : Obj} (ho : s.committed k = some o) : o.m.Shape c := by
  obtain ⟨hr, hf, _⟩ := C29_disciplined_faultless hc h
  have hS := reach_safe hc hr hf.1 hf.2.1 hf.2.2
  obtain ⟨mo, hn⟩ := hS.N.com _ _ ho
  exact (reach_sh hr).nm _ _ _ hn

/-- a token that was committed has the name of the object that became visible -/
theorem published_named {c : SCfg} (hc : c.Ok) {s : DSt} (h : Calm c s) : ∀ {call old new : Nat} {m : Meta} {ifne : Bool},
    (call, Ev.published old new m ifne) ∈ s.lin → ∃ mo, s.names old = some (mo, m) := by
  induction h with
  | fresh h =>
    unfold fresh at h
    split at h
    · simp at h
    · cases h; simp
  | @step s1 s2 h1 hs _ ih =>
    intro call old new m ifne hm
    have hnn : (∃ mo, s1.names old = some (mo, m)) → ∃ mo, s2.names old = some (mo, m) := fun ⟨mo, e⟩ =>
      ⟨mo, (names_stay hs (id := old) (by rw [e]; simp)).trans e⟩
    rcases published_back hs hm with hm | ⟨_, th, hth, o, hp, hoi, hom⟩
    · exact hnn (ih hm)
    · obtain ⟨hr, hf, _⟩ := C29_disciplined_faultless hc h1
      obtain ⟨mo, e⟩ := (reach_safe hc hr hf.1 hf.2.1 hf.2.2).N.thr th hth o (by rw [hp]; simp [PC.objs])
      rw [hoi, hom] at e
      exact hnn ⟨mo, e⟩
  | restart order _ _ _ hl ih =>
    obtain ⟨a0, l, _, h1, hok, rfl⟩ := load_some hl
    intro call old new m ifne hm
    simp at hm

/-- The life of a committed upload, seen backwards: since a time at which the upload was past its creation, it was an
upload, or in the hands of a call committing it, until it was published, and it was visible from then on. -/
theorem upload_life {c : SCfg} (hc : c.Ok) {tr : Nat → DSt} {n : Nat} (h0 : Calm c (tr 0))
    (hr : ∀ i, i < n → Moves c (tr i) (tr (i + 1))) {id newId : Nat} {m : Meta} {call : Nat} {ifne : Bool}
    (hv : (tr n).committed m.key = some ⟨newId, m⟩) (hpub : (call, Ev.published id newId m ifne) ∈ (tr n).lin)
    {k : Nat} (hpast : Past (tr k) id) :
    ∀ i, k ≤ i → i ≤ n → TokOk (tr i) id ∨
      (tr i).committed m.key = some ⟨newId, m⟩ ∧ (call, Ev.published id newId m ifne) ∈ (tr i).lin := by
  have hcalm : ∀ {i}, i ≤ n → Calm c (tr i) := run_calm h0 hr
  have hp : ∀ i, k ≤ i → i ≤ n → Past (tr i) id := by
    intro i hi
    induction i, hi using Nat.le_induction with
    | base => intro _; exact hpast
    | succ i hi ih =>
      intro h2
      rcases hr i (by omega) with ⟨hs, _⟩ | ⟨_, order, _, hl⟩
      · exact past_step (ih (by omega)) hs
      · exact past_load (ih (by omega)) hl
  have hback : ∀ d, k + d ≤ n → TokOk (tr (n - d)) id ∨
      (tr (n - d)).committed m.key = some ⟨newId, m⟩ ∧ (call, Ev.published id newId m ifne) ∈ (tr (n - d)).lin := by
    intro d
    induction d with
    | zero => intro _; exact Or.inr ⟨hv, hpub⟩
    | succ d ih =>
      intro hd
      have e : n - d = n - (d + 1) + 1 := by omega
      have ih := ih (by omega)
      rw [e] at ih
      obtain ⟨hre, hf, ho⟩ := C29_disciplined_faultless hc (hcalm (i := n - (d + 1)) (by omega))
      rcases hr (n - (d + 1)) (by omega) with ⟨hs, _⟩ | ⟨_, order, hperm, hl⟩
      · rcases ih with ih | ⟨ih1, ih2⟩
        · exact Or.inl (tok_back (hp _ (by omega) (by omega)) hs ih)
        · rcases published_back hs ih2 with h1 | ⟨_, th, hth, o, hpc, hoi, _⟩
          · rcases visible_back hs ih1 with h2 | h2
            · exact Or.inr ⟨h2, h1⟩
            · exact absurd h2 ((reach_fresh hre).named newId (List.mem_append_left _ (List.mem_flatMap.2 ⟨_, h1, by simp [Ev.newId]⟩)))
          · have hown := (reach_lin hre).own th hth
            rw [hpc] at hown
            simp only [PC.own] at hown
            exact Or.inl (Or.inr ⟨th, hth, Or.inr ⟨by rw [hpc]; trivial, o.m, by rw [hown, hoi]; simp⟩⟩)
      · have hlin : (tr (n - (d + 1) + 1)).lin = [] := by obtain ⟨a0, l, _, h1, hok, e⟩ := load_some hl; rw [e]
        rcases ih with ih | ⟨_, ih2⟩
        · exact Or.inl (tok_back_load (reach_id hre) (reach_safe hc hre hf.1 hf.2.1 hf.2.2) (reach_dur hc hre hf ho) hperm hl ih)
        · rw [hlin] at ih2; simp at ih2
  intro i h1 h2
  have := hback (n - i) (by omega)
  rwa [show n - (n - i) = i by omega] at this

/-- The bytes an object holds when it has become visible are the bytes that were uploaded. `tr` is any run, with any other
calls, crashes and restarts, to a state in which the object is visible and the commit of the upload `o` that made it so took
effect since the last start. `D` are the bytes the client uploaded: for every page of the object the last device write to it
(by a `write_object` call for this upload) completed and put the bytes of `D` there. -/
theorem C62_contents_partial {c : SCfg} (hc : c.Ok) {tr : Nat → DSt} {n : Nat} (h0 : Calm c (tr 0))
    (hr : ∀ i, i < n → Moves c (tr i) (tr (i + 1))) {o : Obj} {D : List Byte} (hD : D.length = o.m.size)
    (hw : ∀ pos off p, (pos, off, p) ∈ placed 0 (o.m.dataPages c.pages) → pos < D.length → PageWritten tr n o.id D pos off p)
    {newId : Nat} (hv : (tr n).committed o.m.key = some ⟨newId, o.m⟩)
    (hpub : ∃ call ifne, (call, Ev.published o.id newId o.m ifne) ∈ (tr n).lin) {lay : ObjectLayout}
    (hlay : calcObjectLayoutDirect c.pages o.m.size = some lay) :
    RW.contents c.pages lay (tr n).dev o.m.rw = D := by
  have hcalm : ∀ {i}, i ≤ n → Calm c (tr i) := run_calm h0 hr
  have hsh : o.m.Shape c := inUse_shape (o := ⟨newId, o.m⟩) hc (hcalm (Nat.le_refl n)) hv
  have hlay' : calcObjectLayout c.pages o.m.rw.size = some lay := by
    unfold calcObjectLayoutDirect at hlay
    split at hlay
    · exact hlay
    · exact absurd hlay (by simp)
  obtain ⟨es, hi⟩ := RW.layInfo_of ⟨hc.sl, hc.l32, hc.l24⟩ hlay'
  have hlen : (RW.contents c.pages lay (tr n).dev o.m.rw).length = o.m.rw.size := RW.contents_length hi (tr n).dev
  obtain ⟨call, ifne, hpub⟩ := hpub
  obtain ⟨mo, hname⟩ := published_named hc (hcalm (Nat.le_refl n)) hpub
  have hnames : ∀ k, k ≤ n → (tr k).names o.id ≠ none → (tr k).names o.id = some (mo, o.m) := by
    intro k hk hne
    have : ∀ i, k ≤ i → i ≤ n → (tr i).names o.id = (tr k).names o.id := by
      intro i hi
      induction i, hi using Nat.le_induction with
      | base => intro _; rfl
      | succ i hi ih =>
        intro h2
        rw [← ih (by omega)]
        rcases hr i (by omega) with ⟨hs, _⟩ | ⟨_, order, _, hl⟩
        · exact names_stay hs (id := o.id) (by rw [ih (by omega)]; exact hne)
        · obtain ⟨a0, l, _, h1, hok, e⟩ := load_some hl; rw [e]
    rw [← this n hk (Nat.le_refl n)]; exact hname
  have hbyte : ∀ pos off p, (pos, off, p) ∈ placed 0 (o.m.dataPages c.pages) → ∀ j, j < 2 ^ p → pos + j < D.length →
      some ((tr n).dev (off + j)) = D[pos + j]? := by
    intro pos off p hpl j hj hlt
    obtain ⟨k, w, hk, ⟨pre, post, hwr, hdone⟩, hwid, hwoff, hh, hlast⟩ := hw pos off p hpl (by omega)
    have hpg := placed_mem hpl
    have hpast : Past (tr k) o.id := by
      obtain ⟨hre, hf, _⟩ := C29_disciplined_faultless hc (hcalm (i := k) (by omega))
      obtain ⟨hheld, o2, _, ⟨mo2, hn2⟩, ho2, _⟩ := (reach_safe hc hre hf.1 hf.2.1 hf.2.2).W.wr w (by rw [hwr]; simp)
      rw [hwid] at hheld ho2
      exact held_past (reach_id hre) (reach_h hre) (by rw [← ho2, hn2]; simp) hheld
    have hlife := upload_life hc h0 hr hv hpub hpast
    have hnm : ∀ i, k ≤ i → i ≤ n → (tr i).names o.id = some (mo, o.m) := by
      intro i hi
      induction i, hi using Nat.le_induction with
      | base => intro h2; exact hnames k h2 hpast.1
      | succ i hi ih =>
        intro h2
        refine hnames (i + 1) h2 ?_
        rcases hr i (by omega) with ⟨hs, _⟩ | ⟨_, order, _, hl⟩
        · rw [names_stay hs (id := o.id) (by rw [ih (by omega)]; simp), ih (by omega)]; simp
        · obtain ⟨a0, l, _, h1, hok, e⟩ := load_some hl
          rw [e]
          show (tr i).names o.id ≠ none
          rw [ih (by omega)]; simp
    have key : ∀ i, k + 1 ≤ i → i ≤ n → some ((tr i).dev (off + j)) = D[pos + j]? := by
      intro i
      induction i with
      | zero => intro h; omega
      | succ i ih =>
        intro h1 h2
        by_cases hki : k = i
        · subst hki
          rw [hdone, ← hh j hj hlt, hwoff]
          have hjl : j < w.data.length := by
            by_contra hn
            have := hh j hj hlt
            rw [List.getElem?_eq_none (by omega), List.getElem?_eq_getElem hlt] at this
            simp at this
          have := Mem.read_write_sub (tr k).dev off w.data j 1 (by omega)
          rw [List.getElem?_eq_getElem hjl]
          rw [read_getElem] at this
          simp only [List.range_one, List.map_cons, List.map_nil, Nat.add_zero] at this
          rw [List.drop_eq_getElem_cons hjl] at this
          simp only [List.take_succ_cons, List.take_zero, List.cons.injEq, and_true] at this
          exact congrArg some this
        · rw [← ih (by omega) (by omega)]
          congr 1
          by_contra hne
          obtain ⟨hre, hf, hov⟩ := C29_disciplined_faultless hc (hcalm (i := i) (by omega))
          have hS := reach_safe hc hre hf.1 hf.2.1 hf.2.2
          rcases hr i (by omega) with ⟨hs, hpol⟩ | ⟨_, order, _, hl⟩
          · rcases hlife i (by omega) (by omega) with hop | ⟨hu, _⟩
            · obtain ⟨w', hw', e1, e2⟩ := tok_isolated (reach_h hre) (reach_k hre) (reach_lin hre) hS (reach_dur hc hre hf hov)
                (hnm i (by omega) (by omega)) hop hs hpg (by omega) (by omega : off + j < off + 2 ^ p) hne
              exact hlast i (by omega) (by omega) w' hw' e1 e2
            · obtain ⟨_, r2, _⟩ := C29_disciplined_faultless hc (hcalm (i := i + 1) (by omega))
              exact hne (C51_visible_unchanged_partial (o := ⟨newId, o.m⟩) hc hre hs r2 (Or.inl hu) hpg (by omega) (by omega))
          · exact hne (by rw [C51_restart_unchanged hl])
    exact key n (by omega) (Nat.le_refl _)
  apply List.ext_getElem?
  intro i
  by_cases hlt : i < o.m.size
  · have hil : i < (RW.contents c.pages lay (tr n).dev o.m.rw).length := by rw [hlen]; exact hlt
    have hil' : i < (RW.allBytes (tr n).dev (RW.objPages c.pages lay o.m.rw)).length := by
      simp only [RW.contents, List.length_take] at hil
      omega
    rw [rw_pages hlay hsh] at hil'
    obtain ⟨pos, off, p, j, g1, g2, g3, g4⟩ := allBytes_get (pos0 := 0) hil'
    have : (RW.contents c.pages lay (tr n).dev o.m.rw)[i]? = (RW.allBytes (tr n).dev (o.m.dataPages c.pages))[i]? := by
      simp only [RW.contents]
      rw [List.getElem?_take_of_lt (by exact hlt), rw_pages hlay hsh]
    rw [this, g4, hbyte pos off p g1 j g2 (by omega)]
    congr 1; omega
  · have e : o.m.rw.size = o.m.size := rfl
    rw [List.getElem?_eq_none (by rw [hlen, e]; omega), List.getElem?_eq_none (by omega)]

/-- Once the calls that changed the key are answered, every read of the key, at any later time and after any number of
crashes and restarts, returns exactly the requested bytes of what was uploaded, until another commit or delete of the key
takes effect. -/
theorem C62_read_back_partial {c : SCfg} (hc : c.Ok) {tr : Nat → DSt} {n : Nat} (h0 : Calm c (tr 0))
    (hr : ∀ i, i < n → Moves c (tr i) (tr (i + 1))) {o : Obj} {D : List Byte} (hD : D.length = o.m.size)
    (hw : ∀ pos off p, (pos, off, p) ∈ placed 0 (o.m.dataPages c.pages) → pos < D.length → PageWritten tr n o.id D pos off p)
    {newId : Nat} (hv : (tr n).committed o.m.key = some ⟨newId, o.m⟩)
    (hpub : ∃ call ifne, (call, Ev.published o.id newId o.m ifne) ∈ (tr n).lin) (ha : Answered (tr n) o.m.key)
    {s : DSt} (hl : Later c o.m.key (tr n) s) (bufSize start stop : Nat) (hb : 0 < bufSize) (h1 : start ≤ stop) (h2 : stop ≤ D.length)
    (fuel : Nat) (hf : stop - start < fuel) :
    ∃ o', s.committed o.m.key = some o' ∧ o'.id = newId ∧ o'.m.size = D.length ∧
      ∃ chunks, RW.opReadDirect c.pages o'.m.rw s.dev bufSize start (some stop) fuel = .ret (.ok chunks) ∧
        chunks.flatten = (D.drop start).take (stop - start) := by
  have hcalm := run_calm h0 hr (Nat.le_refl n)
  obtain ⟨e1, e2⟩ := C28_disciplined_forever_partial hc hcalm ha hl
  have hsh := inUse_shape hc hcalm hv
  obtain ⟨lay, hlay, _⟩ := id hsh
  simp only at hlay hsh
  refine ⟨⟨newId, o.m⟩, by rw [e1, hv], rfl, hD.symm, ?_⟩
  obtain ⟨chunks, g1, g2, _⟩ := C18_direct_read_exact c.pages ⟨hc.sl, hc.l32, hc.l24⟩ o.m.rw s.dev lay hlay bufSize start stop hb
    (some stop) rfl h1 (by rw [hD] at h2; exact h2) fuel hf
  refine ⟨chunks, g1, ?_⟩
  rw [g2]
  congr 2
  rw [← C62_contents_partial hc h0 hr hD hw hv hpub hlay]
  simp only [RW.contents]
  congr 1
  refine allBytes_congr ?_
  rw [rw_pages hlay hsh]
  intro p hp x g3 g4
  exact e2 _ hv p.1 p.2 hp x g3 g4

theorem placed_append {a b : List (Nat × Nat)} : ∀ {pos : Nat}, placed pos (a ++ b) = placed pos a ++ placed (pos + RW.psum a) b := by
  induction a with
  | nil => intro pos; simp [placed, RW.psum]
  | cons q a ih =>
    intro pos
    obtain ⟨o', p'⟩ := q
    simp only [List.cons_append, placed, ih, RW.psum_cons]
    rw [Nat.add_assoc]

theorem placed_bound {l : List (Nat × Nat)} : ∀ {pos0 pos off p : Nat}, (pos, off, p) ∈ placed pos0 l →
    pos0 ≤ pos ∧ pos + 2 ^ p ≤ pos0 + RW.psum l := by
  induction l with
  | nil => intro _ _ _ _ h; cases h
  | cons q l ih =>
    intro pos0 pos off p h
    obtain ⟨o', p'⟩ := q
    simp only [placed, List.mem_cons, Prod.mk.injEq] at h
    rw [RW.psum_cons]
    rcases h with ⟨rfl, rfl, rfl⟩ | h
    · simp only; omega
    · have h1 := ih h
      have h2 := Nat.two_pow_pos p'
      exact ⟨by omega, by simp only; omega⟩

/-- each page of a part gets one device write with its bytes -/
theorem pieces_placed {block : List Byte → List Byte} {spage : Nat} (hb : RW.BlockOk spage block)
    {ts pp : List (Nat × Nat)} (h : RW.Fit ts pp) (hs : ∀ p ∈ pp, spage ≤ p.2) : ∀ {d : List Byte} {pos0 : Nat},
    d.length = RW.amtSum ts → ∀ pos off p, (pos, off, p) ∈ placed pos0 pp →
    ∃ w, (off, w) ∈ RW.pieces block ts d ∧ w.length ≤ 2 ^ p ∧ ∀ j, j < 2 ^ p → pos - pos0 + j < d.length → w[j]? = d[pos - pos0 + j]? := by
  induction h with
  | nil => intro _ _ _ _ _ _ h; cases h
  | @last amt off e h0 hle =>
    intro d pos0 hd pos off' p hm
    simp only [placed, List.mem_singleton, Prod.mk.injEq] at hm
    obtain ⟨rfl, rfl, rfl⟩ := hm
    obtain ⟨pad, hpad⟩ := hb.pre (d.take amt)
    simp only [RW.amtSum_cons] at hd
    have hd' : d.length = amt := by simpa using hd
    refine ⟨block (d.take amt), by simp [RW.pieces], hb.len _ _ (hs (off', p) (by simp)) (by rw [List.length_take]; omega), ?_⟩
    intro j _ hj
    rw [hpad, List.getElem?_append_left (by rw [List.length_take]; omega), List.getElem?_take_of_lt (by omega)]
    congr 1; omega
  | @cons off e ts pp hf ih =>
    intro d pos0 hd pos off' p hm
    simp only [RW.amtSum_cons] at hd
    simp only [placed, List.mem_cons, Prod.mk.injEq] at hm
    rcases hm with ⟨rfl, rfl, rfl⟩ | hm
    · obtain ⟨pad, hpad⟩ := hb.pre (d.take (2 ^ p))
      refine ⟨block (d.take (2 ^ p)), by simp [RW.pieces], hb.len _ _ (hs (off', p) (by simp)) (by rw [List.length_take]; omega), ?_⟩
      intro j hj _
      rw [hpad, List.getElem?_append_left (by rw [List.length_take]; omega), List.getElem?_take_of_lt (by omega)]
      congr 1; omega
    · obtain ⟨w, h1, h2, h3⟩ := ih (fun p hp => hs p (by simp [hp])) (d := d.drop (2 ^ e)) (pos0 := pos0 + 2 ^ e)
        (by rw [List.length_drop]; omega) pos off' p hm
      have := (placed_bound hm).1
      have := Nat.two_pow_pos e
      refine ⟨w, by simp [RW.pieces, h1], h2, ?_⟩
      intro j hj hjd
      rw [h3 j hj (by rw [List.length_drop]; omega), List.getElem?_drop]
      congr 1; omega

theorem pageWrites_eq (pages : Pages) (junk : Nat → Byte) (ts : List (Nat × Nat)) (d : List Byte) :
    pageWrites pages junk ts d = RW.pieces (RW.blockDirect pages junk) ts d := by
  induction ts generalizing d with
  | nil => rfl
  | cons t ts ih => obtain ⟨a, b⟩ := t; simp only [pageWrites, RW.pieces, ih]

/-- What `write_object` writes to the device for a part of the upload: for every page of the object that lies in the part
one write, of at most a page, with the bytes that belong there (`HoldsPart`), and nothing else. So a client that uploads all
parts of `D` makes the page writes that C62 asks for. -/
theorem C62_parts_write_pages {c : SCfg} (hc : c.Ok) {m : Meta} (hsh : m.Shape c) {D : List Byte} (hD : D.length = m.size)
    (junk : Nat → Byte) {w : Nat × List (List Byte)} (hw : IsPart c.pages D w) {lay : ObjectLayout}
    (hlay : calcObjectLayoutDirect c.pages m.size = some lay) :
    ∃ ws : List (Nat × List Byte), ws = partWrites c.pages junk lay m w.1 w.2.flatten ∧
      (∀ dev, ∃ n, ∀ fuel, n ≤ fuel → RW.opWriteDirect c.pages junk m.rw dev w.1 w.2.flatten.length (w.2.map .ok) fuel =
        .ret (.ok (), dev.writeAll ws)) ∧
      (∀ x ∈ ws, ∃ p, (x.1, p) ∈ m.dataPages c.pages ∧ x.2.length ≤ 2 ^ p) ∧
      ∀ pos off p, (pos, off, p) ∈ placed 0 (m.dataPages c.pages) → w.1 ≤ pos → pos < w.1 + 2 ^ c.pages.lpage → pos < D.length →
        ∃ d, (off, d) ∈ ws ∧ d.length ≤ 2 ^ p ∧ HoldsPart D d pos p := by
  have hp : RW.PagesOk c.pages := ⟨hc.sl, hc.l32, hc.l24⟩
  have hlay' : calcObjectLayout c.pages m.rw.size = some lay := by
    unfold calcObjectLayoutDirect at hlay
    split at hlay
    · exact hlay
    · exact absurd hlay (by simp)
  obtain ⟨es, hi⟩ := RW.layInfo_of hp hlay'
  have hchk := part_check hw
  rw [hD] at hchk
  obtain ⟨hfit, hsum, a, b, hobj, hpa, hb1, hb2, hsp⟩ := hi.targets (o := m.rw) hp w.1 w.2.flatten.length hchk
  rw [rw_pages hlay hsh] at hobj
  refine ⟨RW.pieces (RW.blockDirect c.pages junk) (RW.writeTargets c.pages lay m.rw w.1) w.2.flatten, (pageWrites_eq _ _ _ _).symm, ?_, ?_, ?_⟩
  · intro dev
    exact part_write (layout := calcObjectLayoutDirect) (block := RW.blockDirect c.pages junk) hp (o := m.rw) hlay hi hD hw dev
  · intro x hx
    obtain ⟨e, h1, h2⟩ := RW.pieces_range (RW.blockDirect_ok c.pages junk) hfit hsp _ x hx
    exact ⟨e, by rw [hobj]; simp [h1], h2⟩
  · intro pos off p hm h1 h2 h3
    rw [hobj, placed_append, placed_append] at hm
    have hlen : w.2.flatten.length = min (2 ^ c.pages.lpage) (D.length - w.1) := by
      rw [hw.2.2.2, List.length_take, List.length_drop]
    have hmid : (pos, off, p) ∈ placed (0 + RW.psum a) (RW.partPages c.pages lay m.rw w.1) := by
      rcases List.mem_append.1 hm with hm | hm
      · rcases List.mem_append.1 hm with hm | hm
        · have := placed_bound hm
          have := Nat.two_pow_pos p
          omega
        · exact hm
      · have hge := (placed_bound hm).1
        rcases hb1 with rfl | hb1
        · cases hm
        · rw [RW.psum_append, ← hb1] at hge
          omega
    obtain ⟨d, g1, g2, g3⟩ := pieces_placed (RW.blockDirect_ok c.pages junk) hfit hsp (d := w.2.flatten) hsum.symm pos off p hmid
    refine ⟨d, g1, g2, ?_⟩
    intro j hj hjD
    have hb := placed_bound hmid
    have hlt : pos - (0 + RW.psum a) + j < w.2.flatten.length := by
      have hDs : D.length = m.rw.size := hD
      rcases hb1 with hbn | hb1
      · have := hb2 hbn
        omega
      · rw [hb1]
        omega
    rw [g3 j hj hlt, hw.2.2.2, List.getElem?_take_of_lt (by rw [hlen] at hlt; omega), List.getElem?_drop]
    congr 1; omega

/-- The whole upload: if every part of `D` was stored by a `write_object` call for the upload `o` (all its device writes
completed, and no later call was writing to the same pages), with whatever padding and in whatever order, interleaved with
anything, and with crashes and restarts in between, and then the upload was committed and the changes of its key were
answered, then from then on every read of the key returns the requested bytes of `D`, after any number of crashes and
restarts, until another commit or delete of the key takes effect. -/
theorem C62_uploaded_partial {c : SCfg} (hc : c.Ok) {tr : Nat → DSt} {n : Nat} (h0 : Calm c (tr 0))
    (hr : ∀ i, i < n → Moves c (tr i) (tr (i + 1))) {o : Obj} {D : List Byte} (hD : D.length = o.m.size) {lay : ObjectLayout}
    (hlay : calcObjectLayoutDirect c.pages o.m.size = some lay) (junk : Nat → Nat → Byte)
    (hup : ∀ q, q * 2 ^ c.pages.lpage < D.length → Stored tr n o.id
      (partWrites c.pages (junk q) lay o.m (q * 2 ^ c.pages.lpage) ((D.drop (q * 2 ^ c.pages.lpage)).take (2 ^ c.pages.lpage))))
    {newId : Nat} (hv : (tr n).committed o.m.key = some ⟨newId, o.m⟩)
    (hpub : ∃ call ifne, (call, Ev.published o.id newId o.m ifne) ∈ (tr n).lin) (ha : Answered (tr n) o.m.key)
    {s : DSt} (hl : Later c o.m.key (tr n) s) (bufSize start stop : Nat) (hb : 0 < bufSize) (h1 : start ≤ stop) (h2 : stop ≤ D.length)
    (fuel : Nat) (hf : stop - start < fuel) :
    ∃ o', s.committed o.m.key = some o' ∧ o'.id = newId ∧ o'.m.size = D.length ∧
      ∃ chunks, RW.opReadDirect c.pages o'.m.rw s.dev bufSize start (some stop) fuel = .ret (.ok chunks) ∧
        chunks.flatten = (D.drop start).take (stop - start) := by
  refine C62_read_back_partial hc h0 hr hD ?_ hv hpub ha hl bufSize start stop hb h1 h2 fuel hf
  intro pos off p hm hpos
  have hsh : o.m.Shape c := inUse_shape (o := ⟨newId, o.m⟩) hc (run_calm h0 hr (Nat.le_refl n)) hv
  have hL := Nat.two_pow_pos c.pages.lpage
  have hq1 : pos / 2 ^ c.pages.lpage * 2 ^ c.pages.lpage ≤ pos := Nat.div_mul_le_self _ _
  have hq2 : pos < pos / 2 ^ c.pages.lpage * 2 ^ c.pages.lpage + 2 ^ c.pages.lpage := by
    have := Nat.lt_div_mul_add (a := pos) hL
    exact this
  generalize hq : pos / 2 ^ c.pages.lpage = q at hq1 hq2
  have hst := hup q (by omega)
  have hpart : IsPart c.pages D (q * 2 ^ c.pages.lpage, [(D.drop (q * 2 ^ c.pages.lpage)).take (2 ^ c.pages.lpage)]) := by
    refine ⟨Nat.dvd_mul_left _ _, by simp only; omega, ?_, by simp⟩
    intro x hx
    simp only [List.mem_singleton] at hx
    subst hx
    intro he
    have := congrArg List.length he
    rw [List.length_take, List.length_drop, List.length_nil] at this
    omega
  obtain ⟨ws, rfl, _, _, hws⟩ := C62_parts_write_pages hc hsh hD (junk q) hpart hlay
  obtain ⟨d, hd, _, hh⟩ := hws pos off p hm hq1 hq2 hpos
  simp only [List.flatten_cons, List.flatten_nil, List.append_nil] at hd
  obtain ⟨k, w, e1, e2, e3, e4, e5, e6⟩ := hst _ hd
  exact ⟨k, w, e1, e2, e3, e4, by rw [e5]; exact hh, e6⟩

/-! ## Runs that meet the hypotheses -/

/-- all states of a polite run -/
def calmStates (c : SCfg) (s : DSt) : List Cmd → Option (List DSt)
  | [] => some [s]
  | cmd :: l => (calmExec c s cmd).bind (fun s' => (calmStates c s' l).map (s :: ·))

/-- state `i` of a list of states -/
def nth (s0 : DSt) (l : List DSt) (i : Nat) : DSt := (l[i]?).getD s0

theorem calmExec_moves {c : SCfg} (hc : c.Ok) {s s' : DSt} (h : Calm c s) {cmd : Cmd} (he : calmExec c s cmd = some s') : Moves c s s' := by
  by_cases hrs : ∃ rev, cmd = .restart rev
  · obtain ⟨rev, rfl⟩ := hrs
    simp only [calmExec] at he
    split at he <;> [rename_i hn; cases he]
    obtain ⟨order, hp, hl⟩ := exec_restart (calm_inv hc h).1 he
    exact Or.inr ⟨noReplacingB_ok hn, order, hp, hl⟩
  · have he' : (exec c s cmd).bind (fun s' => if politeB c s s' then some s' else none) = some s' := by
      cases cmd <;> first | exact he | exact absurd ⟨_, rfl⟩ hrs
    obtain ⟨s1, h1, h2⟩ := Option.bind_eq_some_iff.1 he'
    split at h2 <;> [rename_i hb; cases h2]
    cases h2
    exact Or.inl ⟨exec_step h1 (fun rev e => hrs ⟨rev, e⟩), politeB_ok hb⟩

theorem calmExec_write {c : SCfg} {s s' : DSt} {i : Nat} (he : calmExec c s (.writeDone i) = some s') :
    ∃ w, s.writers[i]? = some w ∧ Completes w s s' := by
  simp only [calmExec] at he
  obtain ⟨s1, h1, h2⟩ := Option.bind_eq_some_iff.1 he
  split at h2 <;> [skip; cases h2]
  cases h2
  simp only [exec] at h1
  split at h1 <;> [cases h1; rename_i w hw]
  cases h1
  exact ⟨w, hw, _, _, split_at hw, rfl⟩

theorem calmStates_ok {c : SCfg} (hc : c.Ok) {s0 : DSt} {cmds : List Cmd} : ∀ {s : DSt} {l : List DSt}, Calm c s → calmStates c s cmds = some l →
    l.length = cmds.length + 1 ∧ nth s0 l 0 = s ∧
    (∀ i, i < cmds.length → Moves c (nth s0 l i) (nth s0 l (i + 1))) ∧
    ∀ i j, cmds[i]? = some (.writeDone j) → ∃ w, (nth s0 l i).writers[j]? = some w ∧ Completes w (nth s0 l i) (nth s0 l (i + 1)) := by
  induction cmds with
  | nil =>
    intro s l _ h
    simp only [calmStates, Option.some.injEq] at h
    subst h
    exact ⟨rfl, rfl, fun i hi => by simp at hi, fun i j hi => by simp at hi⟩
  | cons cmd cmds ih =>
    intro s l hca h
    simp only [calmStates] at h
    obtain ⟨s1, h1, h2⟩ := Option.bind_eq_some_iff.1 h
    obtain ⟨l1, h3, rfl⟩ := Option.map_eq_some_iff.1 h2
    obtain ⟨e1, e2, e3, e4⟩ := ih (calmExec_ok hc hca h1) h3
    refine ⟨by simp [e1], rfl, ?_, ?_⟩
    · intro i hi
      cases i with
      | zero =>
        show Moves c s (nth s0 l1 0)
        rw [e2]; exact calmExec_moves hc hca h1
      | succ i => exact e3 i (by simpa using hi)
    · intro i j hi
      cases i with
      | zero =>
        simp only [List.getElem?_cons_zero, Option.some.injEq] at hi
        subst hi
        show ∃ w, s.writers[j]? = some w ∧ Completes w s (nth s0 l1 0)
        rw [e2]; exact calmExec_write h1
      | succ i => exact e4 i j (by simpa using hi)

def wD : List Byte := (List.range 130).map (fun i => UInt8.ofNat (i * 7 + 1))
def wPre : List Cmd := doCreate [1] 130 5 0 ++ [.openHandle 5, .writeStart 0 0 (wD.take 128), .writeStart 0 1 (wD.drop 128)]
def wUp : List Cmd :=
  [.writeDone 0, .restart false, .openHandle 5, .writeStart 0 1 (wD.drop 128 ++ List.replicate 62 9), .writeDone 0] ++ doCommit 5 9 0
def wObj : Obj := ⟨5, ⟨130, 7, [1], [1024], [1152]⟩⟩

/-- Hypotheses met: an upload of 130 bytes in two pages. Both pages are being written; the first write completes, a crash
hits the second one; after the restart the second page is written again (with some padding), the upload is committed and
the commit answered. -/
example : ∃ tr n, Calm wcfg (tr 0) ∧ (∀ i, i < n → Moves wcfg (tr i) (tr (i + 1))) ∧ wD.length = wObj.m.size ∧
    (∀ pos off p, (pos, off, p) ∈ placed 0 (wObj.m.dataPages wcfg.pages) → pos < wD.length → PageWritten tr n wObj.id wD pos off p) ∧
    (∃ lay, calcObjectLayoutDirect wcfg.pages wObj.m.size = some lay ∧ ∀ q, q * 2 ^ wcfg.pages.lpage < wD.length → Stored tr n wObj.id
      (partWrites wcfg.pages (fun _ => 9) lay wObj.m (q * 2 ^ wcfg.pages.lpage) ((wD.drop (q * 2 ^ wcfg.pages.lpage)).take (2 ^ wcfg.pages.lpage)))) ∧
    (tr n).committed wObj.m.key = some ⟨9, wObj.m⟩ ∧
    (∃ call ifne, (call, Ev.published wObj.id 9 wObj.m ifne) ∈ (tr n).lin) ∧ Answered (tr n) wObj.m.key ∧ n = 13 ∧ (tr 2).writers = [] ∧ (tr 1).writers ≠ [] := by
  have h : (wcalm wPre).bind (fun s => (calmStates wcfg s wUp).map (fun l =>
      decide (l.length = 14) &&
      ((nth s l 13).lin.any (fun e => decide (e.2 = .published 5 9 wObj.m false)) &&
      ((List.range 14).all (fun i => i = 0 || (nth s l i).writers.all (fun w => decide (w.off ≠ 1024))) &&
      ((List.range 14).all (fun i => i < 5 || (nth s l i).writers.all (fun w => decide (w.off ≠ 1152))) &&
      (decide ((nth s l 0).writers.map (fun w => (w.id, w.off, w.data)) = [(5, 1024, wD.take 128), (5, 1152, wD.drop 128)]) &&
      (decide ((nth s l 4).writers.map (fun w => (w.id, w.off, w.data)) = [(5, 1152, wD.drop 128 ++ List.replicate 62 9)]) &&
      (decide ((nth s l 13).committed [1] = some ⟨9, wObj.m⟩) &&
      ((nth s l 13).lin.all (fun e => (nth s l 13).acks.any (fun a => decide (a.call = e.1))) &&
      (decide ((nth s l 1).writers.length = 1) && decide ((nth s l 2).writers.length = 0))))))))))) = some true := by
    decide +kernel
  obtain ⟨s, h1, h⟩ := Option.bind_eq_some_iff.1 h
  obtain ⟨l, h2, h⟩ := Option.map_eq_some_iff.1 h
  simp only [Bool.and_eq_true, decide_eq_true_eq, List.all_eq_true, Bool.or_eq_true, List.any_eq_true, List.mem_range] at h
  obtain ⟨e1, e2, e3, e4, e5, e6, e7, e8, e9, e10⟩ := h
  have hca := wcalm_ok h1
  obtain ⟨g1, g2, g3, g4⟩ := calmStates_ok (s0 := s) wcfg_ok hca h2
  have hlen : wUp.length = 13 := by decide
  rw [hlen] at g3
  have hdat : ∀ (ws : List Writer) (a : Nat × Nat × List Byte) (r : List (Nat × Nat × List Byte)) (w : Writer),
      ws.map (fun w => (w.id, w.off, w.data)) = a :: r → ws[0]? = some w → (w.id, w.off, w.data) = a := by
    intro ws a r w h3 h4
    cases ws with
    | nil => cases h4
    | cons x ws =>
      simp only [List.map_cons, List.cons.injEq] at h3
      simp only [List.getElem?_cons_zero, Option.some.injEq] at h4
      rw [← h4]; exact h3.1
  refine ⟨nth s l, 13, by rw [g2]; exact hca, g3, by simp [wD, wObj], ?_, ?_, e7, ?_, ?_, rfl, List.length_eq_zero_iff.1 e10,
    by intro hn; rw [hn] at e9; cases e9⟩
  · intro pos off p hm _
    have hp : placed 0 (wObj.m.dataPages wcfg.pages) = [(0, 1024, 7), (128, 1152, 6)] := by decide
    rw [hp] at hm
    simp only [List.mem_cons, List.not_mem_nil, or_false, Prod.mk.injEq] at hm
    rcases hm with ⟨rfl, rfl, rfl⟩ | ⟨rfl, rfl, rfl⟩
    · obtain ⟨w, hw, hcomp⟩ := g4 0 0 rfl
      have := hdat _ _ _ w e5 hw
      simp only [Prod.mk.injEq] at this
      refine ⟨0, w, by omega, hcomp, this.1, this.2.1, ?_, ?_⟩
      · rw [this.2.2]
        intro j hj _
        rw [List.getElem?_take_of_lt (show j < 128 from hj), Nat.zero_add]
      · intro i h3 h4 w' hw' _
        rcases e3 i (by omega) with h5 | h5
        · omega
        · exact h5 w' hw'
    · obtain ⟨w, hw, hcomp⟩ := g4 4 0 rfl
      have := hdat _ _ _ w e6 hw
      simp only [Prod.mk.injEq] at this
      refine ⟨4, w, by omega, hcomp, this.1, this.2.1, ?_, ?_⟩
      · rw [this.2.2]
        intro j hj hjl
        rw [List.getElem?_append_left (by rw [List.length_drop]; omega), List.getElem?_drop]
      · intro i h3 h4 w' hw' _
        rcases e4 i (by omega) with h5 | h5
        · omega
        · exact h5 w' hw'
  · have hl : ∃ lay, calcObjectLayoutDirect wcfg.pages wObj.m.size = some lay ∧
        partWrites wcfg.pages (fun _ => 9) lay wObj.m 0 ((wD.drop 0).take 128) = [(1024, wD.take 128)] ∧
        partWrites wcfg.pages (fun _ => 9) lay wObj.m 128 ((wD.drop 128).take 128) = [(1152, wD.drop 128 ++ List.replicate 62 9)] :=
      ⟨_, rfl, by decide +kernel, by decide +kernel⟩
    obtain ⟨lay, hl, hl0, hl1⟩ := hl
    refine ⟨lay, hl, ?_⟩
    intro q hq
    have hq2 : q = 0 ∨ q = 1 := by
      have e1 : 2 ^ wcfg.pages.lpage = 128 := rfl
      have e2 : wD.length = 130 := by simp [wD]
      rw [e1, e2] at hq; omega
    rcases hq2 with rfl | rfl
    · have : partWrites wcfg.pages (fun _ => 9) lay wObj.m (0 * 2 ^ wcfg.pages.lpage) ((wD.drop (0 * 2 ^ wcfg.pages.lpage)).take (2 ^ wcfg.pages.lpage)) =
          [(1024, wD.take 128)] := hl0
      rw [this]
      intro x hx
      simp only [List.mem_singleton] at hx
      subst hx
      obtain ⟨w, hw, hcomp⟩ := g4 0 0 rfl
      have := hdat _ _ _ w e5 hw
      simp only [Prod.mk.injEq] at this
      refine ⟨0, w, by omega, hcomp, this.1, this.2.1, this.2.2, ?_⟩
      intro i h3 h4 w' hw' _
      rcases e3 i (by omega) with h5 | h5
      · omega
      · exact h5 w' hw'
    · have : partWrites wcfg.pages (fun _ => 9) lay wObj.m (1 * 2 ^ wcfg.pages.lpage) ((wD.drop (1 * 2 ^ wcfg.pages.lpage)).take (2 ^ wcfg.pages.lpage)) =
          [(1152, wD.drop 128 ++ List.replicate 62 9)] := hl1
      rw [this]
      intro x hx
      simp only [List.mem_singleton] at hx
      subst hx
      obtain ⟨w, hw, hcomp⟩ := g4 4 0 rfl
      have := hdat _ _ _ w e6 hw
      simp only [Prod.mk.injEq] at this
      refine ⟨4, w, by omega, hcomp, this.1, this.2.1, this.2.2, ?_⟩
      intro i h3 h4 w' hw' _
      rcases e4 i (by omega) with h5 | h5
      · omega
      · exact h5 w' hw'
  · obtain ⟨e, he, e2⟩ := e2
    exact ⟨e.1, false, by rw [show wObj.id = 5 from rfl, ← e2]; exact he⟩
  · intro e he _
    exact e8 e he

/-- The store itself does not notice an upload that is not complete: key 1 holds the bytes 1, 2, 3 and is deleted; an
upload of 3 bytes for key 2 is committed although nothing was written to it, and reads of key 2 return 1, 2, 3, the bytes
of the deleted object. (The server checks write receipts before it commits, C42.) -/
theorem C62_unwritten_upload_shows_old_bytes : ∃ s, Calm wcfg s ∧ wcfg.Ok ∧
    s.acks.map (·.resp) = [.created 5, .committed (some 9), .deleted, .created 6, .committed (some 12)] ∧
    ∃ o, s.committed [2] = some o ∧ RW.opReadDirect wcfg.pages o.m.rw s.dev 4096 0 none 100 = .ret (.ok [[1, 2, 3]]) := by
  have h : (wcalm (doCreate [1] 3 5 0 ++ [.openHandle 5, .writeStart 0 0 [1, 2, 3], .writeDone 0] ++ doCommit 5 9 0 ++
      doDelete [1] 0 ++ doCreate [2] 3 6 0 ++ doCommit 6 12 0)).bind (fun s => (s.committed [2]).map (fun o =>
      decide (s.acks.map (·.resp) = [.created 5, .committed (some 9), .deleted, .created 6, .committed (some 12)]) &&
      decide (RW.opReadDirect wcfg.pages o.m.rw s.dev 4096 0 none 100 = .ret (.ok [[1, 2, 3]])))) = some true := by decide +kernel
  obtain ⟨s, h1, h⟩ := Option.bind_eq_some_iff.1 h
  obtain ⟨o, h2, h⟩ := Option.map_eq_some_iff.1 h
  simp only [Bool.and_eq_true, decide_eq_true_eq] at h
  exact ⟨s, wcalm_ok h1, wcfg_ok, h.1, o, h2, h.2⟩

end Props
end Blobd
