import Verif.Proof.ExportFree
import Verif.Proof.Live

/-!
# C89: requests and exports of the example server always come to an end
-/

namespace Measured.Server
open Measured.Conc Measured.Spec

section
variable {m : Mode} {c : Vec → ShardConf Key} {cap : Nat}

/-- Where a request is tells what has happened. -/
theorem place_event {tr : List Event} {b : Sys} (h : Exec (Step m c) (.new cap) tr b) (t : Tid) {P : Pc → Prop} {Q : Event → Prop}
    (h0 : ¬ P .new) (hm : ∀ p e p', Moves t p e p' → P p' → P p ∨ Q e) (hp : P (b.pc t)) : ∃ e ∈ tr, Q e := by
  induction h with
  | nil => exact absurd hp h0
  | @snoc tr a e b he hs ih =>
    have key : ∀ {u p}, Moves u (a.pc u) e p → b.pc = Function.update a.pc u p → ∃ f ∈ tr ++ [e], Q f := by
      intro u p hmv hb
      by_cases hu : t = u
      · subst hu
        rw [hb, Function.update_self] at hp
        rcases hm _ _ _ hmv hp with h | h
        · obtain ⟨f, hf, hq⟩ := ih h
          exact ⟨f, List.mem_append_left _ hf, hq⟩
        · exact ⟨e, by simp, h⟩
      · rw [hb, Function.update_of_ne hu] at hp
        obtain ⟨f, hf, hq⟩ := ih hp
        exact ⟨f, List.mem_append_left _ hf, hq⟩
    cases hs with
    | on _ hmv _ => exact key hmv rfl
    | own _ hmv => exact key hmv rfl

theorem started {tr : List Event} {b : Sys} (h : Exec (Step m c) (.new cap) tr b) {t : Tid} (hp : b.pc t ≠ .new) :
    ∃ r, .begin t r ∈ tr := by
  obtain ⟨e, he, r, rfl⟩ := place_event h t (P := fun p => p ≠ .new) (Q := fun e => ∃ r, e = .begin t r) (by simp)
    (fun p e p' hm _ => by cases hm <;> first | exact .inr ⟨_, rfl⟩ | exact .inl (by simp)) hp
  exact ⟨r, he⟩

theorem ended {tr : List Event} {b : Sys} (h : Exec (Step m c) (.new cap) tr b) {t : Tid} {r : Req} {st : Option Nat}
    (hp : b.pc t = .done r st) : .finish t ∈ tr := by
  obtain ⟨e, he, rfl⟩ := place_event h t (P := fun p => ∃ r st, p = .done r st) (Q := fun e => e = .finish t) (by simp)
    (fun p e p' hm hp => by
      obtain ⟨r, st, rfl⟩ := hp
      cases hm
      exact .inr rfl) ⟨r, st, hp⟩
  exact he

theorem refused_of {tr : List Event} {b : Sys} (h : Exec (Step m c) (.new cap) tr b) {t : Tid} {q : Pc}
    (hp : b.pc t = .dead q) : ∃ (i : Vec) (g : i.groups.Group), .on i (.lab (.encoded t g none)) ∈ tr := by
  obtain ⟨e, he, i, g, rfl⟩ := place_event h t (P := fun p => ∃ q, p = .dead q)
    (Q := fun e => ∃ (i : Vec) (g : i.groups.Group), e = .on i (.lab (.encoded t g none))) (by simp)
    (fun p e p' hm hp => by
      obtain ⟨r, rfl⟩ := hp
      cases hm <;> exact .inr ⟨_, _, rfl⟩) ⟨q, hp⟩
  exact ⟨i, g, he⟩

theorem abandon_left {tr : List Event} {b : Sys} (h : Exec (Step m c) (.new cap) tr b) {t : Tid} (ha : .abandon t ∈ tr) :
    (b.pc t).left = true := by
  induction h with
  | nil => cases ha
  | @snoc tr a e b he hs ih =>
    rcases List.mem_append.1 ha with ha | ha
    · exact left_step hs (ih ha)
    · exact left_after hs (.inl (List.mem_singleton.1 ha).symm)

theorem mem_base {tr : List EEvent} {e : Event} : e ∈ baseEvents tr ↔ .base e ∈ tr := by
  induction tr with
  | nil => simp [baseEvents]
  | cons a tr ih =>
    cases a with
    | base f => simp [baseEvents, ih]
    | _ => simp [baseEvents, ih]

variable {ryu : F64 → Bytes} {le : List F64} {tr more : List EEvent} {s s' : ESys} {t : Tid}

theorem goes_begin (h : Exec (fun s e s' => EStep m c ryu le s e s' ∧ Goes s e) s more s') (r : Req) : .begin t r ∉ baseEvents more := by
  induction h with
  | nil => simp [baseEvents]
  | @snoc tr a e b he hs ih =>
    rw [baseEvents_append]
    intro hm
    rcases List.mem_append.1 hm with hm | hm
    · exact ih hm
    · rw [mem_base, List.mem_singleton] at hm
      rw [← hm] at hs
      exact hs.2

theorem goes_few (h : Exec (fun s e s' => EStep m c ryu le s e s' ∧ Goes s e) s more s') (hlen : FewRequests (baseEvents tr)) :
    FewRequests (baseEvents (tr ++ more)) := by
  intro ts hn hts
  refine hlen ts hn fun x hx => ?_
  obtain ⟨r, hr⟩ := hts x hx
  rw [baseEvents_append] at hr
  exact ⟨r, (List.mem_append.1 hr).resolve_right (goes_begin h r)⟩

/-- C89, somebody can always go on: unless all requests rest, there is a step that the environment has no part in, also when
read locks are not granted while a writer waits. -/
theorem C89_progress (h : Exec (EStep m c ryu le) (.new cap) tr s) (hlen : FewRequests (baseEvents tr)) (hle : thresholds = .ok le)
    (hr : ¬ AtRest s) : ∃ e s', EStep m c ryu le s e s' ∧ Goes s e ∧ Polite c s e := by
  unfold AtRest at hr
  push Not at hr
  obtain ⟨t, ht⟩ := hr
  exact all_can h hlen hle ht

theorem work_run (h : Exec (EStep m c ryu le) (.new cap) tr s) (hlen : FewRequests (baseEvents tr)) (hle : thresholds = .ok le)
    {T : List Tid} (hn : T.Nodup) (hT : ∀ t r, .begin t r ∈ baseEvents tr → t ∈ T)
    (hg : Exec (fun s e s' => EStep m c ryu le s e s' ∧ Goes s e) s more s') :
    (T.map (taskWork c T.length s')).sum + more.length ≤ (T.map (taskWork c T.length s)).sum := by
  induction hg with
  | nil => simp
  | @snoc more a e b he hs ih =>
    have hall := exec_append h (exec_weaken (fun _ _ _ h => h.1) he)
    have hfew := goes_few he hlen
    have I := place_inv hall (C88_no_crash hall hfew hle)
    obtain ⟨t, L⟩ := work_step hall I (T := T) (fun t ht => by
      obtain ⟨r, hr⟩ := started (exec_base hall) ht
      rw [baseEvents_append] at hr
      exact hT t r ((List.mem_append.1 hr).resolve_right (goes_begin he r))) hs.1 hs.2
    have := sum_decrease hn L.here (f := taskWork c T.length a) (g := taskWork c T.length b) 0 (fun u hu => by rw [L.same u hu]; exact Nat.le_refl _)
      (by have := L.less; omega)
    rw [List.length_append, List.length_singleton]
    omega

/-- C89, nobody goes on for ever: if the requests begun are among `T`, they take at most so many steps by themselves, whatever
the order. -/
theorem C89_bounded (h : Exec (EStep m c ryu le) (.new cap) tr s) (hlen : FewRequests (baseEvents tr)) (hle : thresholds = .ok le)
    {T : List Tid} (hn : T.Nodup) (hT : ∀ t r, .begin t r ∈ baseEvents tr → t ∈ T)
    (hg : Exec (fun s e s' => EStep m c ryu le s e s' ∧ Goes s e) s more s') : more.length ≤ goBound c T.length := by
  have h1 := work_run h hlen hle hn hT hg
  have h2 : ∀ (R : Nat) (L : List Tid), (L.map (taskWork c R s)).sum ≤ L.length * (31 * placeCost c R) := by
    intro R L
    induction L with
    | nil => simp
    | cons x L ih =>
      have := taskWork_le c R s x
      rw [List.map_cons, List.sum_cons, List.length_cons, Nat.add_mul, Nat.one_mul]
      omega
  have h2 := h2 T.length T
  show more.length ≤ T.length * (31 * placeCost c T.length)
  omega

/-- The requests that have begun. -/
theorem begun_list (tr : List Event) : ∃ T : List Tid, T.Nodup ∧ ∀ t r, .begin t r ∈ tr → t ∈ T := by
  induction tr with
  | nil => exact ⟨[], List.nodup_nil, by simp⟩
  | cons e tr ih =>
    obtain ⟨T, h1, h2⟩ := ih
    by_cases he : ∃ t r, e = .begin t r ∧ t ∉ T
    · obtain ⟨t, r, rfl, ht⟩ := he
      refine ⟨t :: T, List.nodup_cons.2 ⟨ht, h1⟩, fun u r' hu => ?_⟩
      rcases List.mem_cons.1 hu with hu | hu
      · cases hu; simp
      · exact List.mem_cons_of_mem _ (h2 u r' hu)
    · refine ⟨T, h1, fun u r' hu => ?_⟩
      rcases List.mem_cons.1 hu with hu | hu
      · by_contra hc
        exact he ⟨u, r', hu.symm, hc⟩
      · exact h2 u r' hu

/-- C89, all come to rest: from every state the requests can go on by themselves, with writers preferred, until none has anything to do. -/
theorem C89_finish (h : Exec (EStep m c ryu le) (.new cap) tr s) (hlen : FewRequests (baseEvents tr)) (hle : thresholds = .ok le) :
    ∃ more s', Exec (fun s e s' => EStep m c ryu le s e s' ∧ Goes s e ∧ Polite c s e) s more s' ∧ AtRest s' := by
  obtain ⟨T, hn, hT⟩ := begun_list (baseEvents tr)
  have key : ∀ n more s', Exec (fun s e s' => EStep m c ryu le s e s' ∧ Goes s e ∧ Polite c s e) s more s' →
      goBound c T.length ≤ more.length + n →
      ∃ more s', Exec (fun s e s' => EStep m c ryu le s e s' ∧ Goes s e ∧ Polite c s e) s more s' ∧ AtRest s' := by
    intro n
    induction n with
    | zero =>
      intro more s' hx hl
      refine ⟨more, s', hx, ?_⟩
      by_contra hr
      have hg := exec_weaken (Q := fun s e s' => EStep m c ryu le s e s' ∧ Goes s e) (fun _ _ _ h => ⟨h.1, h.2.1⟩) hx
      have hall := exec_append h (exec_weaken (fun _ _ _ h => h.1) hg)
      obtain ⟨e, s'', h1, h2, h3⟩ := C89_progress hall (goes_few hg hlen) hle hr
      have := C89_bounded h hlen hle hn hT (hg.snoc ⟨h1, h2⟩)
      rw [List.length_append, List.length_singleton] at this
      omega
    | succ n ih =>
      intro more s' hx hl
      by_cases hr : AtRest s'
      · exact ⟨more, s', hx, hr⟩
      · have hg := exec_weaken (Q := fun s e s' => EStep m c ryu le s e s' ∧ Goes s e) (fun _ _ _ h => ⟨h.1, h.2.1⟩) hx
        have hall := exec_append h (exec_weaken (fun _ _ _ h => h.1) hg)
        obtain ⟨e, s'', h1, h2, h3⟩ := C89_progress hall (goes_few hg hlen) hle hr
        refine ih _ _ (hx.snoc ⟨h1, h2, h3⟩) ?_
        rw [List.length_append, List.length_singleton]
        omega
  exact key (goBound c T.length) [] s .nil (by omega)

/-- C89, at rest: the mutex is free, the encoder behind it as new, and nobody has a lock of a shard, a guard of a metric or a
call on a vector under way. -/
theorem C89_rest (h : Exec (EStep m c ryu le) (.new cap) tr s) (hlen : FewRequests (baseEvents tr)) (hle : thresholds = .ok le)
    (hr : AtRest s) : s.lock = none ∧ s.enc = .new [] ∧ ∀ t, s.at' t = .out ∧
      ∀ i, (s.base.vecs.own i).vec.thr t = ⟨.idle, []⟩ ∧ (s.base.vecs.own i).pc t = .idle := by
  have I := place_inv h (C88_no_crash h hlen hle)
  have L := lockInv h
  have hl : s.lock = none := by
    cases hl : s.lock with
    | none => rfl
    | some u =>
      have hu := (L.has u).2 hl
      rw [(rests_out I (hr u)).1] at hu
      cases hu
  refine ⟨hl, L.new hl, fun t => ?_⟩
  obtain ⟨h1, h2⟩ := rests_out I (hr t)
  refine ⟨h1, fun i => ?_⟩
  have ok := I.ok t i
  rw [h1] at ok
  change PlaceOk s.base t i ((s.base.pc t).role i) at ok
  rw [h2 i] at ok
  exact ⟨ok.2.1, ok.1⟩

/-- C89, at rest every request that began has been handled to the end, or waits for the service inside to answer, or was refused
an id by the interner. -/
theorem C89_outcome (h : Exec (EStep m c ryu le) (.new cap) tr s) {r : Req}
    (hr : Rests s t) (hb : .base (.begin t r) ∈ tr) : .base (.finish t) ∈ tr ∨
      (.base (.enter t) ∈ tr ∧ (∀ st, .base (.answer t st) ∉ tr) ∧ .base (.abandon t) ∉ tr) ∨
      ∃ (i : Vec) (g : i.groups.Group), .base (.on i (.lab (.encoded t g none))) ∈ tr := by
  have he := exec_base h
  have I := taskInv he t
  simp only [← mem_base] at hb ⊢
  rcases hr with hp | ⟨r, k, hp, _⟩ | ⟨r, st, hp⟩ | ⟨q, hp⟩
  · have := (I.began r).1 hb
    rw [hp] at this
    cases this
  · refine .inr (.inl ⟨I.entered.2 (by rw [hp]; rfl), fun st hs => ?_, fun ha => ?_⟩)
    · have := (I.answered st).1 hs
      rw [hp] at this
      cases this
    · have := abandon_left he ha
      rw [hp] at this
      cases this
  · exact .inl (ended he hp)
  · exact .inr (.inr (refused_of he hp))

/-- What has become of a call of the handler. -/
theorem call_state (h : Exec (EStep m c ryu le) (.new cap) tr s) (hc : .call t ∈ tr) :
    (∃ out, .text t out ∈ tr) ∨ .base (.abandon t) ∈ tr ∨ (s.at' t ≠ .out ∧ ∀ out, s.at' t ≠ .made out) := by
  induction h with
  | nil => cases hc
  | @snoc tr a e b he hs ih =>
    rcases List.mem_append.1 hc with hc | hc
    · rcases ih hc with ⟨out, h⟩ | h | ⟨h1, h2⟩
      · exact .inl ⟨out, List.mem_append_left _ h⟩
      · exact .inr (.inl (List.mem_append_left _ h))
      · rcases step_at hs t with h' | h' | h' | h' | ⟨j, h'⟩ | ⟨j, acc, h'⟩ | ⟨out, h'⟩ | ⟨out, h'⟩ | h'
        · exact .inr (.inr (by rw [h']; exact ⟨h1, h2⟩))
        · exact absurd h'.1 h1
        · exact .inr (.inr (by rw [h'.2.1]; simp))
        · exact .inr (.inl (by rw [h'.2.2]; simp))
        · exact .inr (.inr (by rw [h'.2.1]; simp))
        · exact .inr (.inr (by rw [h'.2.1]; cases j <;> simp [Vec.next]))
        · exact .inl ⟨out, by rw [h'.2.2.1]; simp⟩
        · exact absurd h'.1 (h2 out)
        · exact .inr (.inr (by rw [h'.1]; simp))
    · obtain rfl := List.mem_singleton.1 hc
      cases hs with
      | call => exact .inr (.inr (by simp))

/-- What has become of a text. -/
theorem text_state (h : Exec (EStep m c ryu le) (.new cap) tr s) {out : Bytes} (hc : .text t out ∈ tr) :
    s.at' t = .made out ∨ .base (.answer t 200) ∈ tr := by
  induction h with
  | nil => cases hc
  | @snoc tr a e b he hs ih =>
    rcases List.mem_append.1 hc with hc | hc
    · rcases ih hc with h | h
      · rcases step_at hs t with h' | h' | h' | h' | ⟨j, h'⟩ | ⟨j, acc, h'⟩ | ⟨out, h'⟩ | ⟨out, h'⟩ | h'
        · exact .inl (by rw [h', h])
        · rw [h] at h'; cases h'.1
        · rw [h] at h'; cases h'.1
        · rw [h] at h'; cases h'.1
        · rw [h] at h'; cases h'.1
        · rw [h] at h'; cases h'.1
        · rw [h] at h'; cases h'.1
        · exact .inr (by rw [h'.2.2]; simp)
        · obtain ⟨_, rfl⟩ := h'
          cases hs with
          | headCrash h' => rw [h] at h'; cases h'
          | entryCrash h' => rw [h] at h'; cases h'
      · exact .inr (List.mem_append_left _ h)
    · obtain rfl := List.mem_singleton.1 hc
      cases hs with
      | finish _ he =>
        refine .inl ?_
        simp

/-- C89, every export is answered: at rest, whoever has called the handler of `/metrics` has got the text and answered with it,
unless the connection was closed. -/
theorem C89_export (h : Exec (EStep m c ryu le) (.new cap) tr s) (hlen : FewRequests (baseEvents tr)) (hle : thresholds = .ok le)
    (hr : Rests s t) (hc : .call t ∈ tr) (ha : .base (.abandon t) ∉ tr) :
    ∃ out, .text t out ∈ tr ∧ .base (.answer t 200) ∈ tr := by
  have hout := (rests_out (place_inv h (C88_no_crash h hlen hle)) hr).1
  rcases call_state h hc with ⟨out, ho⟩ | h' | h'
  · refine ⟨out, ho, (text_state h ho).resolve_left ?_⟩
    rw [hout]; simp
  · exact absurd h' ha
  · exact absurd hout h'.1

/-- C89, at an `.await`: while a request waits for the service inside or for the mutex, it has no lock of a shard and no guard of
a metric. -/
theorem C89_await (h : Exec (EStep m c ryu le) (.new cap) tr s) (hlen : FewRequests (baseEvents tr)) (hle : thresholds = .ok le)
    {r : Req} {k : Key} (hp : s.base.pc t = .inside r k) (hw : s.at' t = .out ∨ s.at' t = .wait) (i : Vec) :
    (s.base.vecs.own i).vec.thr t = ⟨.idle, []⟩ ∧ (s.base.vecs.own i).pc t = .idle := by
  have I := place_inv h (C88_no_crash h hlen hle)
  have ok := I.ok t i
  have : roleOf i (s.base.pc t) (s.at' t) = .none := by
    rcases hw with hw | hw <;> (rw [hw, hp]; exact inside_role ..)
  rw [this] at ok
  exact ⟨ok.2.1, ok.1⟩

end

/-! ## A run with an export -/

section
variable {m : Mode} {c : Vec → ShardConf Key} {ryu : F64 → Bytes} {le : List F64} {cap : Nat} {more : List EEvent} {s s' : ESys}

/-- Nobody answers or gives up in a run without the environment, if nobody is in the handler. -/
theorem quiet_run (h : Exec (fun s e s' => EStep m c ryu le s e s' ∧ Goes s e) s more s') (h0 : ∀ t, s.at' t = .out) (t : Tid) :
    s'.at' t = .out ∧ (∀ st, .base (.answer t st) ∉ more) ∧ .base (.abandon t) ∉ more := by
  induction h generalizing t with
  | nil => exact ⟨h0 t, by simp, by simp⟩
  | @snoc more a e b he hs ih =>
    obtain ⟨i1, i2, i3⟩ := ih t
    obtain ⟨hs, hg⟩ := hs
    have hne : (∀ st, e ≠ .base (.answer t st)) ∧ e ≠ .base (.abandon t) := by
      refine ⟨?_, ?_⟩
      · rintro st rfl; exact absurd i1 hg
      · rintro rfl; exact hg
    refine ⟨?_, fun st hm => ?_, fun hm => ?_⟩
    · rcases step_at hs t with h' | h' | h' | h' | ⟨j, h'⟩ | ⟨j, acc, h'⟩ | ⟨out, h'⟩ | ⟨out, h'⟩ | h'
      · rw [h', i1]
      · obtain ⟨_, _, rfl⟩ := h'; exact hg.elim
      · rw [i1] at h'; cases h'.1
      · rw [i1] at h'; cases h'.1
      · rw [i1] at h'; cases h'.1
      · rw [i1] at h'; cases h'.1
      · rw [i1] at h'; cases h'.1
      · rw [i1] at h'; cases h'.1
      · obtain ⟨_, rfl⟩ := h'
        cases hs with
        | headCrash h' => rw [i1] at h'; cases h'
        | entryCrash h' => rw [i1] at h'; cases h'
    · rcases List.mem_append.1 hm with hm | hm
      · exact i2 st hm
      · exact hne.1 st (List.mem_singleton.1 hm).symm
    · rcases List.mem_append.1 hm with hm | hm
      · exact i3 hm
      · exact hne.2 (List.mem_singleton.1 hm).symm

/-- Nobody gives up in a run without the environment. -/
theorem goes_abandon (h : Exec (fun s e s' => EStep m c ryu le s e s' ∧ Goes s e) s more s') (t : Tid) : .base (.abandon t) ∉ more := by
  induction h with
  | nil => simp
  | @snoc tr a e b he hs ih =>
    intro hm
    rcases List.mem_append.1 hm with hm | hm
    · exact ih hm
    · rw [← List.mem_singleton.1 hm] at hs
      exact hs.2

/-- If all requests are for one path, none is refused. -/
theorem alone_fits {tr : List Event} {b : Sys} (h : Exec (Step m c) (.new cap) tr b) (hcap : 0 < cap) {r : Req}
    (hr : ∀ x r', .begin x r' ∈ tr → r' = r) {i : Vec} {t : Tid} {g : i.groups.Group} : .on i (.lab (.encoded t g none)) ∉ tr := by
  intro hm
  obtain ⟨ps, r', _, h2, h3, h4, h5⟩ := C80_refused h hm
  cases ps with
  | nil => simp at h2; omega
  | cons p ps =>
    obtain ⟨y, r'', h6, h7⟩ := h3 p (by simp)
    rw [hr _ _ h6] at h7
    rw [hr _ _ h4, h7] at h5
    exact h5 (by simp)

end

/-- One more request comes to a server at rest, calls `/metrics` and gets its text. -/
theorem export_again {m : Mode} {c : Vec → ShardConf Key} {ryu : F64 → Bytes} {le : List F64} (hle : thresholds = .ok le)
    {cap : Nat} (hcap : 0 < cap) (r : Req) {n : Tid} (hn : n + 1 < 2 ^ 63) {t0 : List EEvent} {s0 : ESys}
    (h0 : Exec (EStep m c ryu le) (.new cap) t0 s0) (b0 : ∀ x r', .begin x r' ∈ baseEvents t0 → x < n ∧ r' = r) (q0 : AtRest s0) :
    ∃ tr s out, Exec (EStep m c ryu le) s0 tr s ∧ (∀ x r', .begin x r' ∈ baseEvents (t0 ++ tr) → x < n + 1 ∧ r' = r) ∧
      AtRest s ∧ .base (.begin n r) ∈ tr ∧ .call n ∈ tr ∧ .text n out ∈ tr ∧ .base (.answer n 200) ∈ tr ∧ .base (.abandon n) ∉ t0 ++ tr ∧
      .base (.finish n) ∈ tr := by
  have few : ∀ tr : List Event, (∀ x r', .begin x r' ∈ tr → x < n + 1 ∧ r' = r) → FewRequests tr := by
    intro tr htr ts hnd hts
    have : ts.length ≤ (List.range (n + 1)).length := (hnd.subperm fun x hx => by
      obtain ⟨r', h⟩ := hts x hx
      exact List.mem_range.2 (htr x r' h).1).length_le
    rw [List.length_range] at this
    exact Nat.lt_of_le_of_lt this hn
  have f0 : FewRequests (baseEvents t0) := few _ fun x r' h => ⟨Nat.lt_succ_of_lt (b0 x r' h).1, (b0 x r' h).2⟩
  have I0 := place_inv h0 (C88_no_crash h0 f0 hle)
  have at0 : ∀ t, s0.at' t = .out := fun t => (rests_out I0 (q0 t)).1
  have p0 : s0.base.pc n = .new := by
    by_contra hc
    obtain ⟨r', hr⟩ := started (exec_base h0) hc
    exact absurd (b0 n r' hr).1 (Nat.lt_irrefl n)
  have ab0 : EEvent.base (.abandon n) ∉ t0 := fun h => by
    have := abandon_left (exec_base h0) (mem_base.2 h)
    rw [p0] at this; cases this
  have an0 : ∀ st, EEvent.base (.answer n st) ∉ t0 := fun st h => by
    have := ((taskInv (exec_base h0) n).answered st).1 (mem_base.2 h)
    rw [p0] at this; cases this
  have fi0 : EEvent.base (.finish n) ∉ t0 := fun h => by
    obtain ⟨_, _, h⟩ := (taskInv (exec_base h0) n).finished (mem_base.2 h)
    rw [p0] at h; cases h
  have x1 : Exec (EStep m c ryu le) s0 ([] ++ [.base (.begin n r)]) _ :=
    .snoc .nil (.run (t := n) (at0 n) (.own (by simp) (by rw [p0]; exact .begin r)) (by exact rfl) trivial)
  have b1 : ∀ x r', .begin x r' ∈ baseEvents (t0 ++ ([] ++ [.base (.begin n r)])) → x < n + 1 ∧ r' = r := by
    intro x r' h
    rw [baseEvents_append] at h
    rcases List.mem_append.1 h with h | h
    · exact ⟨Nat.lt_succ_of_lt (b0 x r' h).1, (b0 x r' h).2⟩
    · rw [mem_base, List.nil_append, List.mem_singleton] at h
      cases h
      exact ⟨Nat.lt_succ_self _, rfl⟩
  have m1 : EEvent.base (.begin n r) ∈ ([] ++ [.base (.begin n r)] : List EEvent) := by simp
  have a1 : EEvent.base (.abandon n) ∉ ([] ++ [.base (.begin n r)] : List EEvent) := by simp
  have a1' : ∀ st, EEvent.base (.answer n st) ∉ ([] ++ [.base (.begin n r)] : List EEvent) := by simp
  generalize ([] ++ [.base (.begin n r)] : List EEvent) = t1 at x1 b1 m1 a1 a1'
  have e1 := exec_append h0 x1
  obtain ⟨t2, s2, h2, q2⟩ := C89_finish e1 (few _ b1) hle
  have g2 := exec_weaken (Q := fun s e s' => EStep m c ryu le s e s' ∧ Goes s e) (fun _ _ _ h => ⟨h.1, h.2.1⟩) h2
  have x2 := exec_append x1 (exec_weaken (fun _ _ _ h => h.1) h2)
  have e2 := exec_append h0 x2
  have b2 : ∀ x r', .begin x r' ∈ baseEvents (t0 ++ (t1 ++ t2)) → x < n + 1 ∧ r' = r := by
    intro x r' h
    rw [← List.append_assoc, baseEvents_append] at h
    exact b1 x r' ((List.mem_append.1 h).resolve_right (goes_begin g2 r'))
  obtain ⟨k2, k3, k4⟩ := quiet_run g2 at0 n
  have hin : ∃ k, s2.base.pc n = .inside r k ∧ s2.at' n = .out := by
    have I := taskInv (exec_base e2) n
    have hreq := (I.began r).1 (mem_base.2 (by simp [m1]))
    have hl : (s2.base.pc n).left ≠ true := fun hl => by
      rcases I.left hl with ⟨st, ha⟩ | ha
      · have ha := mem_base.1 ha
        simp [an0, a1', k3] at ha
      · have ha := mem_base.1 ha
        simp [ab0, a1, k4] at ha
    rcases q2 n with hp | ⟨r', k, hp, ho⟩ | ⟨r', st, hp⟩ | ⟨q, hp⟩
    · rw [hp] at hreq; cases hreq
    · rw [hp] at hreq; cases hreq
      exact ⟨k, hp, ho⟩
    · rw [hp] at hl; exact absurd rfl hl
    · obtain ⟨i, g, hd⟩ := refused_of (exec_base e2) hp
      exact absurd hd (alone_fits (exec_base e2) hcap fun x r' h => (b2 x r' h).2)
  obtain ⟨k, hp, ho⟩ := hin
  have x3 := x2.snoc (.call ho hp)
  have e3 := exec_append h0 x3
  have b3 : ∀ x r', .begin x r' ∈ baseEvents (t0 ++ (t1 ++ t2 ++ [.call n])) → x < n + 1 ∧ r' = r := by
    intro x r' h
    rw [← List.append_assoc, baseEvents_append] at h
    exact b2 x r' ((List.mem_append.1 h).resolve_right (by simp [baseEvents]))
  obtain ⟨t4, s4, h4, q4⟩ := C89_finish e3 (few _ b3) hle
  have g4 := exec_weaken (Q := fun s e s' => EStep m c ryu le s e s' ∧ Goes s e) (fun _ _ _ h => ⟨h.1, h.2.1⟩) h4
  have x4 := exec_append x3 (exec_weaken (fun _ _ _ h => h.1) h4)
  have e4 := exec_append h0 x4
  have b4 : ∀ x r', .begin x r' ∈ baseEvents (t0 ++ (t1 ++ t2 ++ [.call n] ++ t4)) → x < n + 1 ∧ r' = r := by
    intro x r' h
    rw [← List.append_assoc, baseEvents_append] at h
    exact b3 x r' ((List.mem_append.1 h).resolve_right (goes_begin g4 r'))
  have na : EEvent.base (.abandon n) ∉ t0 ++ (t1 ++ t2 ++ [.call n] ++ t4) := by
    have := goes_abandon g4 n
    simp [ab0, a1, k4, this]
  have nt : ∀ out, EEvent.text n out ∉ t0 := fun out h => by
    rcases text_state h0 h with h | h
    · rw [at0 n] at h; cases h
    · exact an0 _ h
  obtain ⟨out, ht, ha⟩ := C89_export e4 (few _ b4) hle (q4 n) (by simp) na
  refine ⟨_, s4, out, x4, b4, q4, by simp [m1], by simp, (List.mem_append.1 ht).resolve_left (nt out),
    (List.mem_append.1 ha).resolve_left (an0 200), na, ?_⟩
  rcases C89_outcome e4 (q4 n) (r := r) (by simp [m1]) with h | ⟨_, h, _⟩ | ⟨i, g, h⟩
  · exact (List.mem_append.1 h).resolve_left fi0
  · exact absurd ha (h 200)
  · exact absurd (mem_base.2 h) (alone_fits (exec_base e4) hcap fun x r' h => (b4 x r' h).2)

theorem new_rests (cap : Nat) : AtRest (.new cap) := fun _ => .inl rfl

/-- C88 and C89: there are runs with two exports, one after the other, and all at rest after them. -/
example (m : Mode) (c : Vec → ShardConf Key) (ryu : F64 → Bytes) (r : Req) :
    ∃ le A B C s out out', thresholds = .ok le ∧ Exec (EStep m c ryu le) (.new 1) (A ++ .text 0 out :: (B ++ .text 1 out' :: C)) s ∧
      FewRequests (baseEvents (A ++ .text 0 out :: (B ++ .text 1 out' :: C))) ∧ AtRest s ∧ .base (.finish 0) ∈ A ++ .text 0 out :: B ∧
      .call 0 ∈ A ++ .text 0 out :: B ∧ .call 1 ∈ B ++ .text 1 out' :: C ∧ .base (.finish 1) ∈ B ++ .text 1 out' :: C := by
  obtain ⟨le, hle, _⟩ := C80_thresholds
  obtain ⟨tr, s, out, h1, b1, q1, _, d1, e1, _, _, f1⟩ := export_again (m := m) (c := c) (ryu := ryu) hle (cap := 1) (by decide) r
    (n := 0) (by decide) .nil (by simp [baseEvents]) (new_rests 1)
  obtain ⟨tr', s', out', h2, b2, q2, _, d2, e2, _, _, f2⟩ := export_again hle (by decide) r (n := 1) (by decide) h1 b1 q1
  obtain ⟨A, B₁, rfl⟩ := List.append_of_mem e1
  obtain ⟨B₂, C, rfl⟩ := List.append_of_mem e2
  have hx := exec_append h1 h2
  rw [show A ++ .text 0 out :: B₁ ++ (B₂ ++ .text 1 out' :: C) = A ++ .text 0 out :: ((B₁ ++ B₂) ++ .text 1 out' :: C) by simp] at hx
  refine ⟨le, A, B₁ ++ B₂, C, s', out, out', hle, hx, ?_, q2, ?_, ?_, ?_, ?_⟩
  · intro ts hnd hts
    have : ts.length ≤ (List.range 2).length := (hnd.subperm fun x hx => by
      obtain ⟨r', h⟩ := hts x hx
      exact List.mem_range.2 (b2 x r' (by simpa [baseEvents_append] using h)).1).length_le
    exact Nat.lt_of_le_of_lt this (by decide)
  · rcases List.mem_append.1 f1 with h | h
    · simp [h]
    · rcases List.mem_cons.1 h with h | h
      · cases h
      · simp [h]
  · rcases List.mem_append.1 d1 with h | h
    · simp [h]
    · rcases List.mem_cons.1 h with h | h
      · cases h
      · simp [h]
  · rcases List.mem_append.1 d2 with h | h
    · simp [h]
    · rcases List.mem_cons.1 h with h | h
      · cases h
      · simp [h]
  · rcases List.mem_append.1 f2 with h | h
    · simp [h]
    · rcases List.mem_cons.1 h with h | h
      · cases h
      · simp [h]

end Measured.Server
