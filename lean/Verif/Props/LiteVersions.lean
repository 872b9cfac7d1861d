import Verif.Proofs.LiteVersions
import Verif.Props.LiteApart
import Verif.Proofs.LiteRun
import Verif.Props.DirectStore
import Verif.Model.ServerConf
/-!
# C85: versioning in the lite store and in the server
-/
set_option autoImplicit false
namespace Blobd
namespace Props
open Lite

/-- the moment of a call with one event -/
theorem during_of {s : LSt} {a : Ack} {e : Ev}
    (h : (((s.lin.take a.stop).drop a.start.at_).filter (fun e => e.1 = a.id)).map (·.2) = [e]) :
    ∃ pre post, s.lin.map (·.2) = pre ++ e :: post ∧ During s a pre := by
  have hm : e ∈ (((s.lin.take a.stop).drop a.start.at_).filter (fun e => e.1 = a.id)).map (·.2) := by rw [h]; simp
  obtain ⟨x, hx, rfl⟩ := List.mem_map.mp hm
  obtain ⟨p, q, hpq⟩ := List.append_of_mem (List.mem_filter.mp hx).1
  have h1 : s.lin.take a.stop = (s.lin.take a.stop).take a.start.at_ ++ (p ++ x :: q) := by rw [← hpq, List.take_append_drop]
  have h2 : s.lin = ((s.lin.take a.stop).take a.start.at_ ++ p) ++ x :: (q ++ s.lin.drop a.stop) := by
    conv => lhs; rw [← List.take_append_drop a.stop s.lin, h1]
    simp
  have hlen := congrArg List.length h1
  simp only [List.length_append, List.length_cons, List.length_take] at hlen
  have h3 := congrArg (List.map (·.2)) h2
  rw [List.map_append, List.map_cons] at h3
  refine ⟨_, _, h3, x.2, _, h3, ?_, ?_⟩
  · simp only [List.length_map, List.length_append, List.length_take]
    omega
  · simp only [List.length_map, List.length_append, List.length_take]
    omega

/-- a prefix of what happened is a run of the abstract store too, and so is its next event -/
theorem run_prefix {c : LCfg} {s : LSt} (h : ∃ a, absRun c.versioning (s.lin.map (·.2)) = some a) {pre post : List Ev} {e : Ev}
    (he : s.lin.map (·.2) = pre ++ e :: post) : ∃ a b, absRun c.versioning pre = some a ∧ absStep c.versioning a e = some b := by
  obtain ⟨a, ha⟩ := h
  rw [he] at ha
  exact Lite.absRun_split ha

/-- **C85**: with versioning, every version that was committed is there until it is deleted, whatever is committed later: at some moment during any
lookup, what it finds is one of the versions there should be, the one asked for; and if it finds nothing, there is none such. -/
theorem C85_kept {c : LCfg} (hc : c.Ok) (hv : c.versioning = true) {s : LSt} (h : ApartReach c s) {a : Ack} (ha : a ∈ s.acks)
    {key : List Byte} {want : Option Nat} (hq : a.start.call = .lookup (.look want) key) :
    (∀ id size off, a.resp = .found id size off → ∃ pre, During s a pre ∧ id ∈ versions pre key ∧ (want = none ∨ want = some id)) ∧
    (a.resp = .notFound → ∃ pre, During s a pre ∧ ∀ id ∈ versions pre key, want ≠ none ∧ want ≠ some id) := by
  obtain ⟨hrun, hex, -, -⟩ := C15_disciplined hc h
  have hx := (hex a ha).2.2
  unfold Explained at hx
  rw [hq] at hx
  constructor
  · intro id size off hr
    rw [hr] at hx
    obtain ⟨pre, post, h1, h2⟩ := during_of hx
    obtain ⟨b, b', hb, hs⟩ := run_prefix hrun h1
    rw [hv] at hb hs
    refine ⟨pre, h2, ?_⟩
    simp only [absStep] at hs
    split at hs
    · rename_i v hf
      split at hs
      · rename_i hvi
        have h3 := List.find?_some hf
        simp only [wants, Bool.and_eq_true, Bool.or_eq_true, Option.isNone_iff_eq_none, beq_iff_eq] at h3
        refine ⟨(versions_mem hb key id).mpr ⟨v, List.mem_of_find?_eq_some hf, h3.1, hvi.1⟩, ?_⟩
        rw [← hvi.1]
        exact h3.2
      · cases hs
    · cases hs
  · intro hr
    rw [hr] at hx
    obtain ⟨pre, post, h1, h2⟩ := during_of hx
    obtain ⟨b, b', hb, hs⟩ := run_prefix hrun h1
    rw [hv] at hb hs
    refine ⟨pre, h2, ?_⟩
    intro id hid
    obtain ⟨v, hvm, hvc, hvi⟩ := (versions_mem hb key id).mp hid
    simp only [absStep] at hs
    split at hs
    · rename_i hf
      rw [Option.isNone_iff_eq_none, Abs.find, List.find?_eq_none] at hf
      have h3 := hf v hvm
      simp only [hvc, wants, Bool.true_and, Bool.or_eq_true, Option.isNone_iff_eq_none, beq_iff_eq, not_or] at h3
      rw [hvi] at h3
      exact h3
    · cases hs

/-- **C85** (partial): a lookup that names no version finds the one committed last, if the versions of the key were committed in the order they were
created. Missing: other orders, for which it does not (`C85_violated_latest`). -/
theorem C85_latest_partial {c : LCfg} (hc : c.Ok) (hv : c.versioning = true) {s : LSt} (h : ApartReach c s) {a : Ack} (ha : a ∈ s.acks)
    {key : List Byte} (hq : a.start.call = .lookup (.look none) key) (ho : InOrder (s.lin.map (·.2)) key) {id size off : Nat}
    (hr : a.resp = .found id size off) : ∃ pre, During s a pre ∧ (versions pre key).getLast? = some id := by
  obtain ⟨hrun, hex, -, -⟩ := C15_disciplined hc h
  have hn := (reach_news hc h.reach (apart_faults hc h)).1
  have hx := (hex a ha).2.2
  unfold Explained at hx
  rw [hq, hr] at hx
  obtain ⟨pre, post, h1, h2⟩ := during_of hx
  obtain ⟨b, b', hb, hs⟩ := run_prefix hrun h1
  rw [hv] at hb hs
  refine ⟨pre, h2, ?_⟩
  rw [h1] at hn ho
  have ho' : InOrder pre key := by
    intro p q i he i' hi'
    exact ho p (q ++ .found key none id size :: post) i (by rw [he]; simp) i' hi'
  have hord := versions_order (news_prefix hn) hb ho'
  simp only [absStep] at hs
  split at hs
  · rename_i v hf
    split at hs
    · rename_i hvi
      unfold Abs.find at hf
      rw [show (fun v : Ver => v.committed && wants none v) = fun v => v.committed from by funext v; simp [wants], ← List.head?_filter] at hf
      have h3 := congrArg List.head? hord
      rw [List.head?_map, hf, Option.map_some, List.head?_reverse] at h3
      rw [← h3, hvi.1]
    · cases hs
  · cases hs

/-- **C85** after a crash: when every change of the bucket was answered, then after a crash at any moment and a restart every version there should be is
found by its id, and a lookup by an id that is not among the versions finds nothing. -/
theorem C85_kept_after_crash {c : LCfg} (hc : c.Ok) (hv : c.versioning = true) {s : LSt} (h : ApartReach c s) {b : Nat} (hb : b < 2 ^ c.bits)
    (hq : Answered c s b) (a : Buddy) {key : List Byte} (hk : c.bkt key = b) (id : Nat) :
    ∃ s1, act c (reopened c s a) (.lookup (.look (some id)) key) = some s1 ∧ (∃ N, ∀ n s2, Looking c s.nextCall n s1 s2 → n ≤ N) ∧
      ∀ n s2, Looking c s.nextCall n s1 s2 → ∃ n' s3 r, Looking c s.nextCall n' s2 s3 ∧ s3.acks = s.acks ++ [r] ∧ r.id = s.nextCall ∧
        (id ∈ versions (s.lin.map (·.2)) key → ∃ size off, r.resp = .found id size off) ∧
        (id ∉ versions (s.lin.map (·.2)) key → r.resp = .notFound) := by
  obtain ⟨x, s1, hx, h1, hN, h2⟩ := C65_disciplined_lookup hc h hb hq a hk (some id)
  rw [hv] at hx
  refine ⟨s1, h1, hN, fun n s2 hl => ?_⟩
  obtain ⟨-, n', s3, r, h3, h4, h5, h6⟩ := h2 n s2 hl
  refine ⟨n', s3, r, h3, h4, h5, fun hid => ?_, fun hid => ?_⟩
  · obtain ⟨v, hvm, hvc, hvi⟩ := (versions_mem hx key id).mp hid
    unfold AnswersAs at h6
    split at h6
    · rename_i u hu
      have h7 := List.find?_some hu
      simp only [wants, Bool.and_eq_true, Bool.or_eq_true, Option.isNone_iff_eq_none, beq_iff_eq, reduceCtorEq, false_or,
        Option.some.injEq] at h7
      obtain ⟨off, h8⟩ := h6
      exact ⟨u.size, off, by rw [h8, ← h7.2]⟩
    · rename_i hf
      rw [Abs.find, List.find?_eq_none] at hf
      exact absurd (hf v hvm) (by simp [hvc, wants, hvi])
  · unfold AnswersAs at h6
    split at h6
    · rename_i u hu
      have h7 := List.find?_some hu
      simp only [wants, Bool.and_eq_true, Bool.or_eq_true, Option.isNone_iff_eq_none, beq_iff_eq, reduceCtorEq, false_or,
        Option.some.injEq] at h7
      exact absurd ((versions_mem hx key id).mpr ⟨u, List.mem_of_find?_eq_some hu, h7.1, h7.2.symm⟩) hid
    · exact h6

/-- **C85**: without versioning there is never more than one version that can be found. -/
theorem C85_off {c : LCfg} (hc : c.Ok) (hv : c.versioning = false) {s : LSt} (h : ApartReach c s) {pre post : List Ev} {key : List Byte} {id size : Nat}
    (he : s.lin.map (·.2) = pre ++ .found key none id size :: post) : visMap pre key = some id :=
  ((C15_disciplined hc h).2.2.2 hv pre post key).1 id size he

/-! ## Concrete executions -/

/-- the small store of the other examples, with versioning -/
def vcfg : LCfg := { wcfg with versioning := true }

theorem vcfg_ok : vcfg.Ok :=
  ⟨by decide, by decide, by decide, by decide, by decide, by decide, by decide, by decide, by decide, by decide,
    fun _ => by simp [vcfg, wcfg], ⟨by decide, fun _ => by simp [vcfg, wcfg]⟩, fun _ _ => by simp [vcfg, wcfg]⟩

/-- calls one after the other in a new store with versioning -/
def vseq (xs : List Cmd) : Option LSt := w0.bind (fun s => runSeq vcfg s xs)

theorem vseq_reach {xs : List Cmd} {s : LSt} (h : vseq xs = some s) : SeqReach vcfg s := by
  obtain ⟨s0, h1, h2⟩ := Option.bind_eq_some_iff.1 h
  exact runSeq_reach vcfg_ok (.fresh ((show fresh vcfg (fun _ => 0) = fresh wcfg (fun _ => 0) from rfl).trans (w0_fresh.trans h1))) h2

/-- Hypotheses met: two versions of a key, both found by their ids after the second was committed, and the second one without an id. -/
example : ∃ s, ApartReach vcfg s ∧ vcfg.Ok ∧ vcfg.versioning = true ∧ InOrder (s.lin.map (·.2)) [1] ∧
    s.acks.map (fun a => (a.start.call, a.resp)) = [(.create [1] 3, .created 5), (.lookup (.commit 5) [1], .committed), (.create [1] 4, .created 7),
      (.lookup (.commit 7) [1], .committed), (.lookup (.look none) [1], .found 7 4 33536), (.lookup (.look (some 5)) [1], .found 5 3 33024)] := by
  have h : (vseq (doCreate 0 [1] 3 5 ++ doCommit 1 [1] 5 1 ++ doCreate 2 [1] 4 7 ++ (commitTo 3 [1] 7 2 ++ flush 1 ++ finish 3 1) ++ doLook 4 [1] 1 ++
      ([.a (.lookup (.look (some 5)) [1])] ++ visit 5 2))).map (fun s => (s.lin.map (·.2), s.acks.map (fun a => (a.start.call, a.resp)))) =
      some ([.created [1] 5 3, .committed [1] 5, .created [1] 7 4, .committed [1] 7, .found [1] none 7 4, .found [1] (some 5) 5 3],
        [(.create [1] 3, .created 5), (.lookup (.commit 5) [1], .committed), (.create [1] 4, .created 7),
      (.lookup (.commit 7) [1], .committed), (.lookup (.look none) [1], .found 7 4 33536), (.lookup (.look (some 5)) [1], .found 5 3 33024)]) := by
    decide +kernel
  obtain ⟨s, h1, h2⟩ := Option.map_eq_some_iff.1 h
  simp only [Prod.mk.injEq] at h2
  refine ⟨s, (vseq_reach h1).apart, vcfg_ok, rfl, ?_, h2.2⟩
  rw [h2.1]
  intro pre post id he id' hid
  have key : ∀ n : Nat, n < 6 → ∀ id' ∈ versions (List.take n [Ev.created [1] 5 3, .committed [1] 5, .created [1] 7 4, .committed [1] 7, .found [1] none 7 4, .found [1] (some 5) 5 3]) [1],
      ∀ id ∈ ([Ev.created [1] 5 3, .committed [1] 5, .created [1] 7 4, .committed [1] 7, .found [1] none 7 4, .found [1] (some 5) 5 3][n]?.bind (fun e => match e with | .committed _ i => some i | _ => none)).toList,
      [id', id].Sublist (madeFor (List.take n [Ev.created [1] 5 3, .committed [1] 5, .created [1] 7 4, .committed [1] 7, .found [1] none 7 4, .found [1] (some 5) 5 3]) [1]) := by
    decide +kernel
  have hl := congrArg List.length he
  simp at hl
  have := key pre.length (by omega) id' (by rw [he]; simpa using hid) id (by rw [he]; simp)
  rw [he] at this
  simpa using this

/-- Hypotheses met, for a crash: two versions of a key, everything answered. -/
example : ∃ s, ApartReach vcfg s ∧ vcfg.Ok ∧ vcfg.versioning = true ∧ vcfg.bkt [1] < 2 ^ vcfg.bits ∧ Answered vcfg s (vcfg.bkt [1]) ∧
    versions (s.lin.map (·.2)) [1] = [5, 7] := by
  have h : (vseq (doCreate 0 [1] 3 5 ++ doCommit 1 [1] 5 1 ++ doCreate 2 [1] 4 7 ++ (commitTo 3 [1] 7 2 ++ flush 1 ++ finish 3 1))).map
      (fun s => (s.lin.all (fun e => s.acks.any (fun a => a.id == e.1)), versions (s.lin.map (·.2)) [1])) = some (true, [5, 7]) := by
    decide +kernel
  obtain ⟨s, h1, h2⟩ := Option.map_eq_some_iff.1 h
  simp only [Prod.mk.injEq] at h2
  refine ⟨s, (vseq_reach h1).apart, vcfg_ok, rfl, by decide, fun i e he _ _ => ?_, h2.2⟩
  have := List.all_eq_true.1 h2.1 _ he
  obtain ⟨a, ha, hi⟩ := List.any_eq_true.1 this
  exact ⟨a, ha, by simpa using hi⟩

/-- **C85** violated: two uploads under one key; the one created first is committed last. Lookups still find the other one. -/
theorem C85_violated_latest : ∃ s, ApartReach vcfg s ∧ vcfg.Ok ∧ vcfg.versioning = true ∧
    s.acks.map (fun a => (a.start.call, a.resp)) = [(.create [1] 3, .created 5), (.create [1] 4, .created 7), (.lookup (.commit 7) [1], .committed),
      (.lookup (.commit 5) [1], .committed), (.lookup (.look none) [1], .found 7 4 33536)] ∧
    versions (s.lin.map (·.2)) [1] = [7, 5] := by
  have h : (vseq (doCreate 0 [1] 3 5 ++ doCreate 1 [1] 4 7 ++ (commitTo 2 [1] 7 2 ++ flush 1 ++ finish 2 1) ++
      (commitTo 3 [1] 5 2 ++ flush 1 ++ finish 3 1) ++ doLook 4 [1] 1)).map (fun s => (s.acks.map (fun a => (a.start.call, a.resp)),
        versions (s.lin.map (·.2)) [1])) = some ([(.create [1] 3, .created 5), (.create [1] 4, .created 7), (.lookup (.commit 7) [1], .committed),
      (.lookup (.commit 5) [1], .committed), (.lookup (.look none) [1], .found 7 4 33536)], [7, 5]) := by decide +kernel
  obtain ⟨s, h1, h2⟩ := Option.map_eq_some_iff.1 h
  simp only [Prod.mk.injEq] at h2
  exact ⟨s, (vseq_reach h1).apart, vcfg_ok, rfl, h2.1, h2.2⟩

/-! ## The server -/

theorem visMap_ids {v : List Byte → Option Direct.Obj} {key : List Byte} {l : List Direct.Ev} : ∀ {o : Direct.Obj}, Direct.visMap v l key = some o →
    v key = some o ∨ ∃ old m f, Direct.Ev.published old o.id m f ∈ l := by
  induction l using List.reverseRecOn with
  | nil => intro o h; exact .inl h
  | append_singleton l e ih =>
    intro o h
    rw [visMap_append] at h
    have more : Direct.visMap v l key = some o → v key = some o ∨ ∃ old m f, Direct.Ev.published old o.id m f ∈ l ++ [e] := by
      intro h
      rcases ih h with h | ⟨old, m, f, h⟩
      · exact .inl h
      · exact .inr ⟨old, m, f, List.mem_append_left _ h⟩
    cases e with
    | published old id m f =>
      simp only [Direct.visMap, List.foldl_cons, List.foldl_nil, Direct.updKey] at h
      split at h
      · injection h with h; subst h; exact .inr ⟨old, m, f, by simp⟩
      · exact more h
    | removed k w id =>
      simp only [Direct.visMap, List.foldl_cons, List.foldl_nil, Direct.updKey] at h
      split at h
      · cases h
      · exact more h
    | _ => exact more h

/-- **C85** violated by the server: whatever `versioning` says in its configuration, once an object is committed under a key no lookup finds one that
was committed under that key before, not even by its id. -/
theorem C85_violated_server (conf : Server.Conf) {s : Direct.DSt} (h : Direct.Reach conf.store s) {pre mid post : List Direct.Ev} {old id : Nat}
    {m : Direct.Meta} {f : Bool} {want : Option Nat} {id0 : Nat} {m0 : Direct.Meta}
    (hl : s.lin.map (·.2) = pre ++ .published old id m f :: (mid ++ .found m.key want id0 m0 :: post)) :
    ∀ old' m' f', Direct.Ev.published old' id0 m' f' ∉ pre := by
  intro old' m' f' hm
  have hrun := (C27_linearizable h).1
  rw [hl, show pre ++ Direct.Ev.published old id m f :: (mid ++ .found m.key want id0 m0 :: post) =
    (pre ++ Direct.Ev.published old id m f :: mid) ++ (.found m.key want id0 m0 :: post) from by simp] at hrun
  obtain ⟨a, h1, h2⟩ := absRun_split hrun
  have hv := absRun_vis h1
  rw [show pre ++ Direct.Ev.published old id m f :: mid = (pre ++ [Direct.Ev.published old id m f]) ++ mid from by simp, visMap_append] at hv
  simp only [Direct.absRun, List.foldlM_cons, Option.bind_eq_bind, Option.bind_eq_some_iff] at h2
  obtain ⟨b, h2, -⟩ := h2
  simp only [Direct.absStep] at h2
  have hid : ∃ x y z, Direct.Ev.published x id0 y z ∈ Direct.Ev.published old id m f :: mid := by
    split at h2
    · rename_i o ho
      split at h2
      · rename_i ho2
        obtain ⟨-, rfl⟩ := ho2
        rw [hv] at ho
        rcases visMap_ids ho with h3 | ⟨x, y, z, h3⟩
        · rw [visMap_append] at h3
          simp only [Direct.visMap, List.foldl_cons, List.foldl_nil, Direct.updKey, if_true] at h3
          injection h3 with h3
          injection h3 with h3
          subst h3
          exact ⟨old, m, f, by simp⟩
        · exact ⟨x, y, z, List.mem_cons_of_mem _ h3⟩
      · cases h2
    · cases h2
  obtain ⟨x, y, z, hid⟩ := hid
  have hn := (C27_ids_fresh h).1
  rw [show s.lin.flatMap (fun e => e.2.newId) = (s.lin.map (·.2)).flatMap Direct.Ev.newId from by rw [List.flatMap_map], hl,
    show pre ++ Direct.Ev.published old id m f :: (mid ++ .found m.key want id0 m0 :: post) =
    pre ++ ((Direct.Ev.published old id m f :: mid) ++ (.found m.key want id0 m0 :: post)) from by simp, List.flatMap_append, List.flatMap_append,
    List.nodup_append] at hn
  exact hn.2.2 id0 (List.mem_flatMap.mpr ⟨_, hm, by simp [Direct.Ev.newId]⟩) id0
    (List.mem_append_left _ (List.mem_flatMap.mpr ⟨_, hid, by simp [Direct.Ev.newId]⟩)) rfl

/-- a small server with `versioning = true` -/
def versionedConf : Server.Conf := { reserved := 128, versioning := true, devOffset := 0, devLen := 4096, lpage := 7, spage := 6 }

/-- the hypotheses of `C85_violated_server` are met: two versions are committed, and a lookup finds the second -/
example : ∃ s : Direct.DSt, Direct.Reach versionedConf.store s ∧ versionedConf.versioning = true ∧
    s.lin.map (fun e => match e.2 with | .published _ id m _ => some (m.key, id) | .found k _ id _ => some (k, id) | _ => none) =
      [none, none, some ([1], 9), none, none, some ([1], 10), some ([1], 10)] := by
  have h : ((Direct.fresh versionedConf.store (fun _ => 0)).bind (fun s => Direct.run versionedConf.store s (Direct.doCreate [1] 10 5 0 ++
      Direct.doCommit 5 9 0 ++ Direct.doCreate [1] 11 6 0 ++ [.commitClaim 6 false, .commitSeal 0, .commitPublish 0 10, .look [1] none]))).map (fun s =>
      s.lin.map (fun e => match e.2 with | .published _ id m _ => some (m.key, id) | .found k _ id _ => some (k, id) | _ => none)) =
      some [none, none, some ([1], 9), none, none, some ([1], 10), some ([1], 10)] := by decide +kernel
  obtain ⟨s, h1, h2⟩ := Option.map_eq_some_iff.1 h
  obtain ⟨s0, h0, h3⟩ := Option.bind_eq_some_iff.1 h1
  exact ⟨s, Direct.run_reach (.fresh h0) h3, rfl, h2⟩

end Props
end Blobd
