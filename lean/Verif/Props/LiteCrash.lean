import Verif.Proofs.LitePending
import Verif.Props.LiteApart
import Verif.Props.LiteRoom
set_option autoImplicit false
/-!
# C65 for the lite store with calls of one bucket kept apart: a crash loses at most the one unanswered change of a bucket

Whatever goes on in other buckets, after a crash each bucket is as after everything that happened, or as before its last change if that
has not been answered: `AllOrAllButLast` (Spec/LiteStart). Excluded are the moments at which the journal writes to places, and buckets in
which a commit that replaces an object is unanswered (C65_violated_create_half_applied, C65_violated_replacing_commit).
-/
namespace Blobd
namespace Props
open Lite

theorem alters_iff {e : Ev} : e.isChange = true ↔ e.alters := by
  cases e <;> simp [Ev.isChange, Ev.alters]

theorem shows_congr {c : LCfg} {m : Mem} {x y : Abs} {b : Nat} (h : BucketShows c m x b) (he : ∀ k, c.bkt k = b → x k = y k) : BucketShows c m y b := by
  obtain ⟨l, h1, h2, h3, h4⟩ := h
  exact ⟨l, h1, h2, h3, fun k hk => by rw [h4 k hk, he k hk]⟩

theorem crash_bucket {c : LCfg} (hc : c.Ok) {s : LSt} (h : ApartReach c s) (hna : ¬ Applying s) {b : Nat}
    (hb : b < 2 ^ c.bits) (hrep : NoneReplacing c s b) : ∃ y, AllOrAllButLast c s b y ∧ BucketShows c s.j.dev y b := by
  obtain ⟨hd, hf⟩ := apart_inv hc h
  have pend := apart_pending hc h
  have hnews := (reach_news hc h.reach hf).1
  by_cases hu : ∃ pre i e post, s.lin = pre ++ (i, e) :: post ∧ e.alters ∧ c.bkt e.key = b ∧ ∀ a ∈ s.acks, a.id ≠ i
  · obtain ⟨pre, i, e, post, hl, hal, hbk, hno⟩ := hu
    have unans : ∀ {i : Nat}, (∀ a ∈ s.acks, a.id ≠ i) → ¬ ∃ a ∈ s.acks, a.id = i := fun h ⟨a, h1, h2⟩ => h a h1 h2
    obtain ⟨⟨t, t1, t2, t3, t4⟩, hpost⟩ := (pend pre i e post hl hal).resolve_left (unans hno)
    rw [hbk] at hpost
    have late_live : ∀ {pc : PC}, pc.late → pc ≠ .dead := by
      rintro pc hp rfl
      exact hp
    have only : ∀ {j : Nat} {e' : Ev}, (j, e') ∈ s.lin → e'.alters → c.bkt e'.key = b → (∃ a ∈ s.acks, a.id = j) ∨ (j = i ∧ e' = e) := by
      intro j e' hm hal' hbk'
      obtain ⟨p, q, hpq⟩ := List.append_of_mem hm
      rcases pend p j e' q hpq hal' with w | ⟨⟨u, u1, u2, u3, u4⟩, _⟩
      · exact .inl w
      · right
        have hji : j = i := by
          apply Classical.byContradiction
          intro hne
          have := hd.one j i u t u1 t1 (late_live u2) (late_live t2) hne (by rw [u3, t3, hbk, hbk'])
          rw [u4] at this
          cases this
        subst hji
        exact ⟨rfl, (reach_single h.reach j t t1).2 _ _ hm (by rw [hl]; simp) hal' hal⟩
    have solo : ∀ {j : Nat} {e' : Ev}, (j, e') ∈ s.lin → e'.alters → c.bkt e'.key = b → (∀ a ∈ s.acks, a.id ≠ j) → j = i ∧ e' = e :=
      fun hm ha hk hn => (only hm ha hk).resolve_left (unans hn)
    -- before and after
    have hlm : s.lin.map (·.2) = pre.map (·.2) ++ e :: post.map (·.2) := by rw [hl]; simp
    have after : ∀ {x : Abs}, absRun c.versioning (s.lin.map (·.2)) = some x → ∃ y z, absRun c.versioning (pre.map (·.2)) = some y ∧
        absStep c.versioning y e = some z ∧ ∀ k, c.bkt k = b → x k = z k := by
      intro x hx
      rw [hlm] at hx
      obtain ⟨y, z, h1, h2⟩ := Lite.absRun_split hx
      refine ⟨y, z, h1, h2, absRun_tail (c := c) h1 h2 hx ?_⟩
      intro p hp
      obtain ⟨q, hq, rfl⟩ := List.mem_map.1 hp
      exact hpost q hq
    have nodup : ∀ {y : Abs}, absRun c.versioning (pre.map (·.2)) = some y → ∀ k, ((y k).map (·.id)).Nodup := by
      intro y hy
      refine abs_ids_nodup ?_ hy
      rw [hlm, List.flatMap_append] at hnews
      exact (List.nodup_append.1 hnews).1
    have made : ∀ {y : Abs}, absRun c.versioning (pre.map (·.2)) = some y → ∀ k, ∀ v ∈ y k, Ev.created k v.id v.size ∈ s.lin.map (·.2) := by
      intro y hy k v hv
      rw [hlm]
      exact List.mem_append_left _ (abs_made hy k v hv)
    have all : ∀ {x : Abs}, absRun c.versioning (s.lin.map (·.2)) = some x → BucketShows c s.j.dev x b →
        ∃ y, AllOrAllButLast c s b y ∧ BucketShows c s.j.dev y b := fun hx hs => ⟨_, .inl hx, hs⟩
    have but : ∀ {y : Abs}, absRun c.versioning (pre.map (·.2)) = some y → BucketShows c s.j.dev y b →
        ∃ y, AllOrAllButLast c s b y ∧ BucketShows c s.j.dev y b := fun hy hs =>
      ⟨_, .inr ⟨pre, i, e, post, hl, alters_iff.2 hal, hbk, hno,
        fun p hp hk => by
          have := hpost p hp hk
          rw [← alters_iff] at this
          simpa using this, hy⟩, hs⟩
    cases e with
    | created key id n =>
      obtain ⟨x, hx, hs⟩ := creates_bucket hc h hna hb (fun j e' hm hk' hcase => by
        rcases only hm (by rcases hcase with ⟨_, _, rfl⟩ | ⟨_, _, _, rfl⟩ <;> trivial) hk' with w | ⟨_, w⟩
        · exact w
        · rcases hcase with ⟨_, _, rfl⟩ | ⟨_, _, _, rfl⟩ <;> cases w)
      rcases hs with hs | ⟨j, key', id', n', g1, g2, g3, hs⟩
      · exact all hx hs
      · obtain ⟨rfl, he⟩ := solo g1 trivial g2 g3
        cases he
        obtain ⟨y, z, h1, h2, h3⟩ := after hx
        refine but h1 (shows_congr hs ?_)
        intro k hk
        cases h2
        have hfresh : ∀ k, ∀ v ∈ y k, v.id ≠ id := by
          intro k v hv hvi
          have h4 := abs_made h1 k v hv
          rw [hlm, List.flatMap_append] at hnews
          exact (List.nodup_append.1 hnews).2.2 id (List.mem_flatMap.2 ⟨_, h4, by rw [hvi]; simp [Ev.new]⟩) id
            (by simp [Ev.new]) rfl
        have hfil : (y k).filter (fun v => decide (v.id ≠ id)) = y k := List.filter_eq_self.2 (fun v hv => by simpa using hfresh k v hv)
        unfold Abs.omit
        rw [h3 k hk]
        unfold Abs.set
        by_cases hkk : k = key
        · subst hkk
          rw [if_pos rfl, List.filter_cons, if_neg (by simp)]
          exact hfil
        · rw [if_neg hkk]
          exact hfil
    | committed key id =>
      obtain ⟨x, hx, hs⟩ := C65_disciplined_commit hc h hb (fun j e' hm hk' hcase => by
        rcases hcase with ⟨_, _, _, rfl⟩ | w | ⟨_, _, _, rfl⟩
        · rcases only hm trivial hk' with w | ⟨_, w⟩
          · exact w
          · cases w
        · exact hrep j e' hm hk' w
        · rcases only hm trivial hk' with w | ⟨_, w⟩
          · exact w
          · cases w)
      rcases hs with hs | ⟨j, key', id', g1, g2, g3, hs⟩
      · exact all hx hs
      · obtain ⟨rfl, he⟩ := solo g1 trivial g2 g3
        cases he
        obtain ⟨y, z, h1, h2, h3⟩ := after hx
        refine but h1 (shows_congr hs ?_)
        simp only [absStep] at h2
        split at h2
        · rename_i hinc
          cases h2
          obtain ⟨w, hw⟩ := Option.isSome_iff_exists.1 hinc
          unfold Abs.incomplete at hw
          have w1 := List.mem_of_find?_eq_some hw
          have w2 := List.find?_some hw
          simp only [Bool.and_eq_true, Bool.not_eq_eq_eq_not, Bool.not_true, beq_iff_eq] at w2
          have hkeep : (y key).filter (fun v => c.versioning || !v.committed) = y key := by
            rw [List.filter_eq_self]
            intro v hv
            cases hvs : c.versioning with
            | true => rfl
            | false =>
              simp only [Bool.false_or, Bool.not_eq_eq_eq_not, Bool.not_true]
              cases hcm : v.committed with
              | false => rfl
              | true =>
                exfalso
                refine unans hno (hrep j (.committed key id) (by rw [hl]; simp) hbk ⟨hvs, pre, post, key, id, y, hl, rfl, h1, ?_⟩)
                unfold Abs.find
                rw [List.find?_isSome]
                exact ⟨v, hv, by simp [hcm, wants]⟩
          have hother : ∀ k, k ≠ key → ∀ v ∈ y k, v.id ≠ id := by
            intro k hkk v hv hvi
            have h4 := made h1 k v hv
            have h5 := made h1 key w w1
            rw [hvi] at h4
            rw [w2.2] at h5
            exact hkk (created_unique hc h.reach hf h4 h5)
          have huniq : ∀ v ∈ y key, v.id = id → v = w := fun v hv hvi =>
            List.inj_on_of_nodup_map (nodup h1 key) hv w1 (hvi.trans w2.2.symm)
          intro k hk
          unfold Abs.without
          rw [h3 k hk]
          unfold Abs.set
          by_cases hkk : k = key
          · subst hkk
            rw [if_pos rfl, hkeep, List.map_map]
            refine (List.map_congr_left (g := fun v => v) ?_).trans (List.map_id' _)
            intro v hv
            simp only [Function.comp, List.mem_singleton]
            by_cases hvi : v.id = id
            · rw [if_pos hvi]
              simp only [hvi, if_true]
              have := huniq v hv hvi
              obtain ⟨a1, a2, a3⟩ := v
              subst this
              simp only at hvi w2
              rw [← hvi, w2.1]
            · rw [if_neg hvi, if_neg hvi]
          · rw [if_neg hkk]
            refine (List.map_congr_left (g := fun v => v) ?_).trans (List.map_id' _)
            intro v hv
            rw [if_neg (by simpa using hother k hkk v hv)]
        · cases h2
    | removed key want id =>
      obtain ⟨x, hx, hs⟩ := deletes_bucket hc h hna hb (fun j e' hm hk' hcase => by
        rcases only hm (by rcases hcase with ⟨_, _, _, rfl⟩ | ⟨_, _, rfl⟩ <;> trivial) hk' with w | ⟨_, w⟩
        · exact w
        · rcases hcase with ⟨_, _, _, rfl⟩ | ⟨_, _, rfl⟩ <;> cases w)
      rcases hs with hs | ⟨j, key', want', id', n', g1, g2, g3, ⟨_, pre', post', want2, y', l, f1, f2, f3⟩, hs⟩
      · exact all hx hs
      · obtain ⟨rfl, he⟩ := solo g1 trivial g2 g3
        cases he
        -- the change happened once, so it is the same place
        have hwant : want2 = want := by
          have := (reach_single h.reach j t t1).2 _ _ (by rw [f1]; simp : (j, Ev.removed key want2 id) ∈ s.lin) g1 trivial trivial
          cases this
          rfl
        subst hwant
        have hpre : pre' = pre := by
          have hp1 := ((pend pre' j _ post' f1 trivial).resolve_left (unans hno)).2
          rw [f1] at hl
          rcases List.append_eq_append_iff.1 hl with ⟨as, a1, a2⟩ | ⟨as, a1, a2⟩
          · cases as with
            | nil => simpa using a1.symm
            | cons q as =>
              exfalso
              simp only [List.cons_append, List.cons.injEq] at a2
              exact hp1 (j, .removed key want2 id) (by rw [a2.2]; simp) rfl trivial
          · cases as with
            | nil => simpa using a1
            | cons q as =>
              exfalso
              simp only [List.cons_append, List.cons.injEq] at a2
              exact hpost (j, .removed key want2 id) (by rw [a2.2]; simp) hbk trivial
        subst hpre
        obtain ⟨y, z, h1, h2, h3⟩ := after hx
        rw [f2] at h1
        cases h1
        refine but f2 (shows_congr hs ?_)
        simp only [absStep] at h2
        split at h2
        · split at h2
          · cases h2
            intro k hk
            unfold Abs.set
            by_cases hkk : k = key
            · subst hkk
              rw [if_pos rfl, h3 k hk]
              unfold Abs.set
              rw [if_pos rfl, f3, List.filter_cons, if_neg (by simp)]
              congr 1
              rw [List.filter_eq_self]
              intro v hv
              have hn := nodup f2 k
              rw [f3, List.map_cons, List.nodup_cons] at hn
              simp only [decide_not, Bool.not_eq_eq_eq_not, Bool.not_true, decide_eq_false_iff_not]
              intro hvi
              exact hn.1 (List.mem_map.2 ⟨v, hv, hvi⟩)
            · rw [if_neg hkk, h3 k hk]
              unfold Abs.set
              rw [if_neg hkk]
          · cases h2
        · cases h2
    | _ => exact hal.elim
  · have hans : ∀ {j : Nat} {e' : Ev}, (j, e') ∈ s.lin → e'.alters → c.bkt e'.key = b → ∃ a ∈ s.acks, a.id = j := by
      intro j e' hm hal' hbk'
      apply Classical.byContradiction
      intro hno
      obtain ⟨p, q, hpq⟩ := List.append_of_mem hm
      exact hu ⟨p, j, e', q, hpq, hal', hbk', fun a ha he => hno ⟨a, ha, he⟩⟩
    obtain ⟨x, hx, hs⟩ := creates_bucket hc h hna hb (fun j e' hm hk' hcase =>
      hans hm (by rcases hcase with ⟨_, _, rfl⟩ | ⟨_, _, _, rfl⟩ <;> trivial) hk')
    rcases hs with hs | ⟨j, key', id', n', g1, g2, g3, hs⟩
    · exact ⟨x, .inl hx, hs⟩
    · obtain ⟨a, ha, he⟩ := hans g1 trivial g2
      exact absurd he (g3 a ha)

/-- **C65.** After a crash at any moment at which the journal is not in the middle of writing to places, every bucket in which no
replacing commit is unanswered is on the device as after everything that happened, or as before its last change, which then has not been
answered. -/
theorem C65_disciplined_crash_partial {c : LCfg} (hc : c.Ok) {s : LSt} (h : ApartReach c s) (hna : ¬ Applying s) {b : Nat}
    (hb : b < 2 ^ c.bits) (hrep : NoneReplacing c s b) :
    ∃ y, AllOrAllButLast c s b y ∧ BucketShows c (Journal.recover c.jc s.j.dev) y b :=
  crash_bucket hc h hna hb hrep

/-- … with versioning there are no replacing commits. -/
theorem C65_disciplined_crash_versioned_partial {c : LCfg} (hc : c.Ok) (hv : c.versioning = true) {s : LSt} (h : ApartReach c s)
    (hna : ¬ Applying s) {b : Nat} (hb : b < 2 ^ c.bits) :
    ∃ y, AllOrAllButLast c s b y ∧ BucketShows c (Journal.recover c.jc s.j.dev) y b :=
  crash_bucket hc h hna hb (fun i e _ _ ⟨hx, _⟩ => by rw [hv] at hx; cases hx)

/-- … and that is what an inspect finds after the restart. -/
theorem C65_disciplined_crash_lookup_partial {c : LCfg} (hc : c.Ok) {s : LSt} (h : ApartReach c s) (hna : ¬ Applying s) {b : Nat}
    (hb : b < 2 ^ c.bits) (hrep : NoneReplacing c s b) (a : Buddy) :
    ∃ y, AllOrAllButLast c s b y ∧
      ∀ key want, c.bkt key = b → ∃ s1, act c (reopened c s a) (.lookup (.look want) key) = some s1 ∧
        (∃ N, ∀ n s2, Looking c s.nextCall n s1 s2 → n ≤ N) ∧
        ∀ n s2, Looking c s.nextCall n s1 s2 →
          (∀ r ∈ s2.acks, r ∈ s.acks ∨ (r.id = s.nextCall ∧ AnswersAs y key want r.resp)) ∧
          ∃ n' s3 r, Looking c s.nextCall n' s2 s3 ∧ s3.acks = s.acks ++ [r] ∧ r.id = s.nextCall ∧ AnswersAs y key want r.resp := by
  obtain ⟨y, h1, h2⟩ := crash_bucket hc h hna hb hrep
  exact ⟨y, h1, fun _ want hk => look_answers h2 (s := reopened c s a) rfl rfl rfl hk want⟩

/-- Hypotheses met: the journal has the delete of one of the two objects of bucket 0 and has not begun to write it to its place; the
commit of that object was answered before. -/
example : ∃ s, ApartReach qcfg s ∧ qcfg.Ok ∧ NoneReplacing qcfg s 0 ∧ ¬ Answered qcfg s 0 ∧ ¬ Applying s ∧
    s.lin.map (·.2) = [.created [2] 6 3, .created [3] 7 3, .committed [3] 7, .removed [3] none 7] := by
  have h : (qapart (doCreate 0 [2] 3 6 ++ doCreate 1 [3] 3 7 ++ doCommit 2 [3] 7 2 ++ [.a (.lookup (.delete none) [3])] ++ visit 3 1 ++ [.timer, .recv])).map (fun s =>
      (match s.j.phase with | .entries _ _ => false | _ => true) &&
        (decide (s.lin.map (·.2) = [.created [2] 6 3, .created [3] 7 3, .committed [3] 7, .removed [3] none 7]) &&
        (decide (s.lin.map (·.1) = [0, 1, 2, 3]) && (decide (s.acks.map (·.id) = [0, 1, 2]))))) = some true := by decide +kernel
  obtain ⟨s, h1, h2⟩ := Option.map_eq_some_iff.1 h
  simp only [Bool.and_eq_true, decide_eq_true_eq] at h2
  obtain ⟨e1, e2, e3, e4⟩ := h2
  have hlin : s.lin = [(0, .created [2] 6 3), (1, .created [3] 7 3), (2, .committed [3] 7), (3, .removed [3] none 7)] := by
    have : s.lin = (s.lin.map (·.1)).zip (s.lin.map (·.2)) := by rw [List.zip_map']; simp
    rw [this, e2, e3]
    rfl
  have hack : ∀ n, (∃ a ∈ s.acks, a.id = n) ↔ n ∈ [0, 1, 2] := by intro n; rw [← e4, List.mem_map]
  refine ⟨s, qapart_reach h1, qcfg_ok, ?_, ?_, ?_, e2⟩
  · rintro i e he _ ⟨_, _, _, k, id, _, _, rfl, _⟩
    rw [hlin] at he
    simp only [List.mem_cons, Prod.mk.injEq, List.not_mem_nil, or_false, reduceCtorEq, and_false, false_or] at he
    rw [he.1]
    exact (hack 2).2 (by decide)
  · intro hq
    have := (hack 3).1 (hq 3 (.removed [3] none 7) (by rw [hlin]; simp) (by decide +kernel) (.inr (.inr ⟨_, _, _, rfl⟩)))
    revert this; decide
  · rintro ⟨_, _, hp, _⟩
    rw [hp] at e1
    cases e1

/-! ## Other properties under the same rule -/

/-- **C49.** A read is not torn while its object stays in use, whatever else goes on. -/
theorem C49_lite_disciplined_partial {c : LCfg} (hc : c.Ok) {tr : Nat → LSt} {n : Nat} (ht : Lite.Trace c tr n) (h0 : Reach c (tr 0))
    (hd : ApartReach c (tr n)) {off a b : Nat} (hab : a < b) (hb : b ≤ n) (hu : ∀ i, a ≤ i → i < b → InUse c (tr i) off)
    (clock : Nat → Nat) (hcl : ∀ x, a ≤ clock x ∧ clock x ≤ b) {lay : ObjectLayout}
    (hlay : calcObjectLayout c.pages (rdSize (tr a).j.dev off) = some lay) (start stop : Nat) (h1 : start < stop)
    (h2 : stop ≤ rdSize (tr a).j.dev off) (fuel : Nat) (hfuel : stop - start < fuel) :
    ∃ chunks, RW.opReadLite c.pages (rwObj c.pages (fun x => (tr (clock x)).j.dev x) off) (fun x => (tr (clock x)).j.dev x)
        start (some stop) fuel = .ret (.ok chunks) ∧
      chunks.flatten = ((RW.contents c.pages lay (tr a).j.dev (rwObj c.pages (tr a).j.dev off)).drop start).take (stop - start) :=
  C49_lite_undisturbed_partial hc ht h0 (apart_faults hc hd) hab hb hu clock hcl hlay start stop h1 h2 fuel hfuel

/-- **C64.** When no call is running, the lists on the device hold what results from everything that happened. -/
theorem C64_disciplined_partial {c : LCfg} (hc : c.Ok) {s : LSt} (h : ApartReach c s) (hi : Idle s) :
    Drained s ∧ ∃ x, absRun c.versioning (s.lin.map (·.2)) = some x ∧ DeviceShows c s.j.dev x := by
  have hf := apart_faults hc h
  have hd := C64_idle_is_durable hc h.reach hf hi
  obtain ⟨a, hr⟩ : ∃ a : Buddy, a = s.alloc := ⟨_, rfl⟩
  exact ⟨hd, (C64_reopened_partial hc h.reach hf hd a).1⟩

/-- **C78.** A create for which there are enough free large pages is answered with the new object's id, whatever else goes on. -/
theorem C78_lite_disciplined {c : LCfg} (hc : c.Ok) {σ : Nat → LSt} (h : Lite.FairRun c σ) (hd : ∀ m, ApartReach c (σ m)) {n : Nat} {key assoc : List Byte}
    {size created id : Nat} {lay : ObjectLayout} (hm : act c (σ n) (.create key size assoc created id) = some (σ (n + 1)))
    (hl : calcObjectLayout c.pages size = some lay) (hr : recordSize lay key assoc ≤ 2 ^ c.pages.lpage) (hp : pageCount lay + 1 ≤ Lite.largePages c (σ n)) :
    ∃ j, n < j ∧ Made (σ j) (σ n).nextCall id :=
  C78_lite_create_accepted hc h (fun m => apart_faults hc (hd m)) hm hl hr hp

end Props
end Blobd
