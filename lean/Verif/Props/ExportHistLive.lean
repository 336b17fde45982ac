import Verif.Proof.ExportHistWork

/-!
# C91: with their histograms step by step, requests and exports of the example server always come to an end
-/

namespace Measured.Server
open Measured.Conc Measured.Spec

section
variable {m : Mode} {c : Vec → ShardConf Key} {ryu : F64 → Bytes} {le : List F64} {cap : Nat} {s s' : DSys} {t : Tid} {tr more : List DEvent}

/-- C91, somebody can always go on: unless all requests rest, there is a step that the environment has no part in, also when no
read lock is granted while a writer waits. -/
theorem C91_progress (h : Exec (DStep m c ryu le) (.new cap le.length) tr s) (hlen : FewRequests (outer tr)) (hle : thresholds = .ok le)
    (hr : ¬ DAtRest s) : ∃ e s', DStep m c ryu le s e s' ∧ DGoes s e s' ∧ DPolite c s e :=
  d_progress h hlen hle hr

theorem dgoes_begin (h : Exec (fun s e s' => DStep m c ryu le s e s' ∧ DGoes s e s') s more s') (r : Req) : .begin t r ∉ outer more := by
  induction h with
  | nil => simp [outer]
  | @snoc tr a e b he hs ih =>
    rw [outer_append]
    intro hm
    rcases List.mem_append.1 hm with hm | hm
    · exact ih hm
    · cases e with
      | hist => cases hm
      | top e =>
        cases e with
        | base e =>
          cases e with
          | begin u r' => exact hs.2.elim
          | on => cases hm
          | _ => simp [outer] at hm
        | _ => cases hm

theorem dgoes_few (h : Exec (fun s e s' => DStep m c ryu le s e s' ∧ DGoes s e s') s more s') (hlen : FewRequests (outer tr)) :
    FewRequests (outer (tr ++ more)) := by
  intro ts hn hts
  refine hlen ts hn fun x hx => ?_
  obtain ⟨r, hr⟩ := hts x hx
  rw [outer_append] at hr
  exact ⟨r, (List.mem_append.1 hr).resolve_right (dgoes_begin h r)⟩

theorem forall₂_snoc {X Y : Type} {R : X → Y → Prop} {a : List X} {p : List Y} (h : List.Forall₂ R a p) {x : X} {y : Y} (hr : R x y) :
    List.Forall₂ R (a ++ [x]) (p ++ [y]) := by
  induction h with
  | nil => exact .cons hr .nil
  | cons h1 _ ih => exact .cons h1 ih

/-- A run without the environment, with single-step histograms, and what it leaves to do. -/
theorem dwork_run {ptr : List EEvent} {a : ESys} (h : Exec (DStep m c ryu le) (.new cap le.length) tr s)
    (I : DInv m c ryu le cap ptr a s) (hlen : FewRequests (baseEvents ptr)) (hle : thresholds = .ok le)
    {T : List Tid} (hn : T.Nodup) (hT : ∀ t, a.base.pc t ≠ .new → t ∈ T) {Ks : Finset Key}
    (hg : Exec (fun s e s' => DStep m c ryu le s e s' ∧ DGoes s e s') s more s') (hk : ∀ t k f, .hist t k f ∈ more → k ∈ Ks) :
    ∃ parts a', List.Forall₂ DShows more parts ∧ Exec (fun s e s' => EStep m c ryu le s e s' ∧ Goes s e) a parts.flatten a' ∧
      DInv m c ryu le cap (ptr ++ parts.flatten) a' s' ∧ (∀ t, a'.base.pc t ≠ .new → t ∈ T) ∧
      dWork c le.length T Ks a' s'.hist + more.length ≤ dWork c le.length T Ks a s.hist := by
  induction hg with
  | nil => exact ⟨[], a, .nil, .nil, by simpa using I, hT, by simp⟩
  | @snoc more b e b' he hs ih =>
    obtain ⟨parts, a', h1, h2, h3, h4, h5⟩ := ih fun t k f hm => hk t k f (List.mem_append_left _ hm)
    have hx := exec_append h (exec_weaken (fun _ _ _ h => h.1) he)
    obtain ⟨part, a'', g1, g2, g3, g4, g5⟩ := dwork_step h3 (dbusy hx) (goes_few h2 hlen) hle hn h4 (Ks := Ks)
      (fun t k f h => hk t k f (by simp [h])) hs.1 hs.2
    refine ⟨parts ++ [part], a'', forall₂_snoc h1 g1, ?_, ?_, g4, ?_⟩
    · simpa using exec_append h2 g2
    · simpa using g3
    · rw [List.length_append, List.length_singleton]
      omega

def DEvent.key : DEvent → Option Key
  | .hist _ k _ => some k
  | .top _ => none

/-- C91, nobody goes on for ever: if the requests begun are among `T`, they take at most so many steps by themselves, whatever
the order. -/
theorem C91_bounded (h : Exec (DStep m c ryu le) (.new cap le.length) tr s) (hlen : FewRequests (outer tr)) (hle : thresholds = .ok le)
    {T : List Tid} (hn : T.Nodup) (hT : ∀ t r, .begin t r ∈ outer tr → t ∈ T)
    (hg : Exec (fun s e s' => DStep m c ryu le s e s' ∧ DGoes s e s') s more s') : more.length ≤ stepBound c le.length T.length := by
  obtain ⟨parts, a, h1, I⟩ := d_inv h
  obtain ⟨_, _, _, _, _, _, hw⟩ := dwork_run h I (outer_few h1 hlen) hle hn (fun t ht => by
    obtain ⟨r, hr⟩ := started (exec_base I.exec) ht
    exact hT t r ((mem_outer h1 (by simp)).2 hr)) (Ks := (more.filterMap DEvent.key).toFinset) hg
    (fun t k f hm => List.mem_toFinset.2 (List.mem_filterMap.2 ⟨_, hm, rfl⟩))
  have h2 : ∀ (R : Nat) (L : List Tid), (L.map (taskWork c R a)).sum ≤ L.length * (31 * placeCost c R) := by
    intro R L
    induction L with
    | nil => simp
    | cons x L ih =>
      have := taskWork_le c R a x
      rw [List.map_cons, List.sum_cons, List.length_cons, Nat.add_mul, Nat.one_mul]
      omega
  have h2 : _ ≤ goBound c T.length := h2 T.length T
  have h3 : ∀ L : List Tid, (L.map (unengaged s.hist)).sum ≤ L.length := by
    intro L
    induction L with
    | nil => simp
    | cons x L ih =>
      have := unengaged_le s.hist x
      rw [List.map_cons, List.sum_cons, List.length_cons]
      omega
  have h3 := Nat.mul_le_mul_left (histCost le.length T.length) (h3 T)
  have h4 := histTotal_le (dbusy h) le.length T (more.filterMap DEvent.key).toFinset
  have h2 := Nat.mul_le_mul_left (histCost le.length T.length + 1) h2
  unfold dWork at hw
  unfold stepBound
  rw [Nat.mul_comm] at h4
  rw [show le.length + 7 + 2 * T.length = histCost le.length T.length + 1 by unfold histCost; omega,
    show le.length + 6 + 2 * T.length = histCost le.length T.length from rfl]
  omega

/-- C91, all come to rest: from every state the requests can go on by themselves, with writers preferred, until none has anything to do. -/
theorem C91_finish (h : Exec (DStep m c ryu le) (.new cap le.length) tr s) (hlen : FewRequests (outer tr)) (hle : thresholds = .ok le) :
    ∃ more s', Exec (fun s e s' => DStep m c ryu le s e s' ∧ DGoes s e s' ∧ DPolite c s e) s more s' ∧ DAtRest s' := by
  obtain ⟨T, hn, hT⟩ := begun_list (outer tr)
  have key : ∀ n more s', Exec (fun s e s' => DStep m c ryu le s e s' ∧ DGoes s e s' ∧ DPolite c s e) s more s' →
      stepBound c le.length T.length ≤ more.length + n →
      ∃ more s', Exec (fun s e s' => DStep m c ryu le s e s' ∧ DGoes s e s' ∧ DPolite c s e) s more s' ∧ DAtRest s' := by
    intro n
    induction n with
    | zero =>
      intro more s' hx hl
      refine ⟨more, s', hx, ?_⟩
      by_contra hr
      have hg := exec_weaken (Q := fun s e s' => DStep m c ryu le s e s' ∧ DGoes s e s') (fun _ _ _ h => ⟨h.1, h.2.1⟩) hx
      have hall := exec_append h (exec_weaken (fun _ _ _ h => h.1) hg)
      obtain ⟨e, s'', h1, h2, h3⟩ := C91_progress hall (dgoes_few hg hlen) hle hr
      have := C91_bounded h hlen hle hn hT (hg.snoc ⟨h1, h2⟩)
      rw [List.length_append, List.length_singleton] at this
      omega
    | succ n ih =>
      intro more s' hx hl
      by_cases hr : DAtRest s'
      · exact ⟨more, s', hx, hr⟩
      · have hg := exec_weaken (Q := fun s e s' => DStep m c ryu le s e s' ∧ DGoes s e s') (fun _ _ _ h => ⟨h.1, h.2.1⟩) hx
        have hall := exec_append h (exec_weaken (fun _ _ _ h => h.1) hg)
        obtain ⟨e, s'', h1, h2, h3⟩ := C91_progress hall (dgoes_few hg hlen) hle hr
        refine ih _ _ (hx.snoc ⟨h1, h2, h3⟩) ?_
        rw [List.length_append, List.length_singleton]
        omega
  exact key (stepBound c le.length T.length) [] s .nil (by omega)

theorem rests_up {ptr : List EEvent} {a : ESys} (I : DInv m c ryu le cap ptr a s) (hr : DRests s t) : Rests a t := by
  have h := hr.1
  unfold Rests at h ⊢
  rw [I.base.pc_idle hr.2, I.at']
  exact h

/-- C91, at rest: the mutex is free, the encoder behind it as new, and nobody has a lock of a shard or of a histogram, a guard of a
metric or a call on a vector or on a histogram under way. -/
theorem C91_rest (h : Exec (DStep m c ryu le) (.new cap le.length) tr s) (hlen : FewRequests (outer tr)) (hle : thresholds = .ok le)
    (hr : DAtRest s) : s.top.lock = none ∧ s.top.enc = .new [] ∧ ∀ t, s.top.at' t = .out ∧ (∀ k, (s.hist k).pc t = .idle) ∧
      ∀ i, (s.top.base.vecs.own i).vec.thr t = ⟨.idle, []⟩ ∧ (s.top.base.vecs.own i).pc t = .idle := by
  obtain ⟨parts, a, h1, I⟩ := d_inv h
  obtain ⟨r1, r2, r3⟩ := C89_rest I.exec (outer_few h1 hlen) hle fun t => rests_up I (hr t)
  refine ⟨I.lock ▸ r1, I.enc ▸ r2, fun t => ⟨I.at' ▸ (r3 t).1, (hr t).2, fun i => ?_⟩⟩
  obtain ⟨q1, q2⟩ := (r3 t).2 i
  rw [I.base.labs i] at q2
  refine ⟨?_, q2⟩
  by_cases hi : i = .duration
  · subst hi
    have hthr : ((a.base.vecs.own .duration).vec.thr t).erase = ((s.top.base.vecs.own .duration).vec.thr t).erase :=
      congrArg (fun v : SSys Key Empty => v.thr t) I.base.vec
    rw [q1] at hthr
    have g1 := erase_idle (congrArg SThread.pc hthr).symm
    have g2 : [] = ((s.top.base.vecs.own .duration).vec.thr t).guards := congrArg SThread.guards hthr
    generalize (s.top.base.vecs.own .duration).vec.thr t = th at *
    cases th
    cases g1; cases g2; rfl
  · rw [← I.base.own i hi]; exact q1

theorem shows_lab {tr : List DEvent} {parts : List (List EEvent)} (h : List.Forall₂ DShows tr parts) {i : Vec}
    {f : LabelEvent Lab i.groups.n} : .top (.base (.on i (.lab f))) ∈ tr ↔ .base (.on i (.lab f)) ∈ parts.flatten := by
  induction h with
  | nil => simp
  | @cons d part tr parts h1 _ ih =>
    rw [List.flatten_cons, List.mem_append, ← ih, List.mem_cons]
    cases h1 with
    | top d => simp
    | _ => cases i <;> simp

/-- C91, at rest every request that began has been handled to the end, or waits for the service inside to answer, or was refused
an id by the interner. -/
theorem C91_outcome (h : Exec (DStep m c ryu le) (.new cap le.length) tr s) {r : Req}
    (hr : DRests s t) (hb : .begin t r ∈ outer tr) : .finish t ∈ outer tr ∨
      (.enter t ∈ outer tr ∧ (∀ st, .answer t st ∉ outer tr) ∧ .abandon t ∉ outer tr) ∨
      ∃ (i : Vec) (g : i.groups.Group), .top (.base (.on i (.lab (.encoded t g none)))) ∈ tr := by
  obtain ⟨parts, a, h1, I⟩ := d_inv h
  have M : ∀ {e : Event}, (∀ i f, e ≠ .on i f) → (e ∈ outer tr ↔ .base e ∈ parts.flatten) := fun he => (mem_outer h1 he).trans mem_base
  rcases C89_outcome I.exec (rests_up I hr) ((M (by simp)).1 hb) with h | ⟨h2, h3, h4⟩ | ⟨i, g, h⟩
  · exact .inl ((M (by simp)).2 h)
  · exact .inr (.inl ⟨(M (by simp)).2 h2, fun st h => h3 st ((M (by simp)).1 h), fun h => h4 ((M (by simp)).1 h)⟩)
  · exact .inr (.inr ⟨i, g, (shows_lab h1).2 h⟩)

/-- C91, every export is answered: at rest, whoever has called the handler of `/metrics` has got the text and answered with it,
unless the connection was closed. -/
theorem C91_export (h : Exec (DStep m c ryu le) (.new cap le.length) tr s) (hlen : FewRequests (outer tr)) (hle : thresholds = .ok le)
    (hr : DRests s t) (hc : .top (.call t) ∈ tr) (ha : .abandon t ∉ outer tr) :
    ∃ out, .top (.text t out) ∈ tr ∧ .answer t 200 ∈ outer tr := by
  obtain ⟨parts, a, h1, I⟩ := d_inv h
  have M : ∀ {e : Event}, (∀ i f, e ≠ .on i f) → (e ∈ outer tr ↔ .base e ∈ parts.flatten) := fun he => (mem_outer h1 he).trans mem_base
  obtain ⟨out, h2, h3⟩ := C89_export I.exec (outer_few h1 hlen) hle (rests_up I hr) ((shows_mem h1 (by simp)).1 hc)
    (fun h => ha ((M (by simp)).2 h))
  exact ⟨out, (shows_mem h1 (by simp)).2 h2, (M (by simp)).2 h3⟩

end

/-! ## A run with exports -/

/-- One more request comes to a server at rest, calls `/metrics` and gets its text. -/
theorem stepwise_again {m : Mode} {c : Vec → ShardConf Key} {ryu : F64 → Bytes} {le : List F64} (hle : thresholds = .ok le)
    {cap : Nat} (hcap : 0 < cap) (r : Req) {n : Tid} (hn : n + 1 < 2 ^ 63) {t0 : List DEvent} {s0 : DSys}
    (h0 : Exec (DStep m c ryu le) (.new cap le.length) t0 s0) (b0 : ∀ x r', .begin x r' ∈ outer t0 → x < n ∧ r' = r) (q0 : DAtRest s0) :
    ∃ tr s out, Exec (DStep m c ryu le) s0 tr s ∧ (∀ x r', .begin x r' ∈ outer (t0 ++ tr) → x < n + 1 ∧ r' = r) ∧
      DAtRest s ∧ .top (.call n) ∈ tr ∧ .top (.text n out) ∈ tr ∧ .finish n ∈ outer tr := by
  have few : ∀ tr : List Event, (∀ x r', .begin x r' ∈ tr → x < n + 1 ∧ r' = r) → FewRequests tr := by
    intro tr htr ts hnd hts
    have : ts.length ≤ (List.range (n + 1)).length := (hnd.subperm fun x hx => by
      obtain ⟨r', h⟩ := hts x hx
      exact List.mem_range.2 (htr x r' h).1).length_le
    rw [List.length_range] at this
    exact Nat.lt_of_le_of_lt this hn
  have f0 : FewRequests (outer t0) := few _ fun x r' h => ⟨Nat.lt_succ_of_lt (b0 x r' h).1, (b0 x r' h).2⟩
  obtain ⟨_, _, rest0⟩ := C91_rest h0 f0 hle q0
  obtain ⟨p0, a0, m0, I0⟩ := d_inv h0
  have M0 : ∀ {e : Event}, (∀ i f, e ≠ .on i f) → (e ∈ outer t0 ↔ e ∈ baseEvents p0.flatten) := fun he => mem_outer m0 he
  have k0 : a0.base.pc n = .new := by
    by_contra hc
    obtain ⟨r', hr⟩ := started (exec_base I0.exec) hc
    exact absurd (b0 n r' ((M0 (by simp)).2 hr)).1 (Nat.lt_irrefl n)
  have ab0 : .abandon n ∉ outer t0 := fun h => by
    have := abandon_left (exec_base I0.exec) ((M0 (by simp)).1 h)
    rw [k0] at this; cases this
  have an0 : ∀ st, .answer n st ∉ outer t0 := fun st h => by
    have := ((taskInv (exec_base I0.exec) n).answered st).1 ((M0 (by simp)).1 h)
    rw [k0] at this; cases this
  have fi0 : .finish n ∉ outer t0 := fun h => by
    obtain ⟨_, _, h⟩ := (taskInv (exec_base I0.exec) n).finished ((M0 (by simp)).1 h)
    rw [k0] at h; cases h
  have nt : ∀ out, .top (.text n out) ∉ t0 := fun out h => by
    rcases text_state I0.exec ((shows_mem m0 (by simp)).1 h) with h | h
    · rw [I0.at', (rest0 n).1] at h; cases h
    · exact an0 200 ((M0 (by simp)).2 (mem_base.2 h))
  have pn : s0.top.base.pc n = .new := (I0.base.pc_idle (rest0 n).2.1).symm.trans k0
  -- the request begins
  have x1 : Exec (DStep m c ryu le) s0 ([] ++ [.top (.base (.begin n r))]) _ :=
    .snoc .nil (.top (.run (t := n) (rest0 n).1 (.own (by simp) (by rw [pn]; exact .begin r)) (by exact rfl) trivial) trivial
      fun t _ => (rest0 t).2.1)
  have at1 := fun t => (rest0 t).1
  have o1 : outer ([] ++ [.top (.base (.begin n r))]) = [.begin n r] := rfl
  have hi1 : ∀ t k, (s0.hist k).pc t = .idle := fun t => (rest0 t).2.1
  rw [List.nil_append] at x1 o1
  generalize hs1 : (DSys.mk _ s0.hist) = s1 at x1
  have at1 : ∀ t, s1.top.at' t = .out := by rw [← hs1]; exact at1
  generalize ([.top (.base (.begin n r))] : List DEvent) = t1 at x1 o1
  have e1 := exec_append h0 x1
  have b1 : ∀ x r', .begin x r' ∈ outer (t0 ++ t1) → x < n + 1 ∧ r' = r := by
    intro x r' h
    rw [outer_append, o1] at h
    rcases List.mem_append.1 h with h | h
    · exact ⟨Nat.lt_succ_of_lt (b0 x r' h).1, (b0 x r' h).2⟩
    · cases List.mem_singleton.1 h
      exact ⟨Nat.lt_succ_self _, rfl⟩
  -- and goes on until it waits for the service inside
  obtain ⟨t2, s2, h2, q2⟩ := C91_finish e1 (few _ b1) hle
  have g2 := exec_weaken (Q := fun s e s' => DStep m c ryu le s e s' ∧ DGoes s e s') (fun _ _ _ h => ⟨h.1, h.2.1⟩) h2
  have x2 := exec_append x1 (exec_weaken (fun _ _ _ h => h.1) h2)
  have e2 := exec_append h0 x2
  have b2 : ∀ x r', .begin x r' ∈ outer (t0 ++ (t1 ++ t2)) → x < n + 1 ∧ r' = r := by
    intro x r' h
    rw [← List.append_assoc, outer_append] at h
    exact b1 x r' ((List.mem_append.1 h).resolve_right (dgoes_begin g2 r'))
  obtain ⟨p1, a1, m1, I1⟩ := d_inv e1
  obtain ⟨T, hnd, hT⟩ := begun_list (outer (t0 ++ t1))
  obtain ⟨p2, a2, m2, y2, I2, _⟩ := dwork_run e1 I1 (outer_few m1 (few _ b1)) hle hnd (fun t ht => by
    obtain ⟨r, hr⟩ := started (exec_base I1.exec) ht
    exact hT t r ((mem_outer m1 (by simp)).2 hr)) (Ks := (t2.filterMap DEvent.key).toFinset) g2
    (fun t k f hm => List.mem_toFinset.2 (List.mem_filterMap.2 ⟨_, hm, rfl⟩))
  obtain ⟨_, k3, k4⟩ := quiet_run y2 (fun t => by rw [I1.at']; exact at1 t) n
  have M : ∀ {e : Event}, (∀ i f, e ≠ .on i f) → (e ∈ baseEvents (p1.flatten ++ p2.flatten) ↔ e ∈ outer t0 ∨ e = .begin n r ∨ .base e ∈ p2.flatten) := by
    intro e he
    rw [baseEvents_append, List.mem_append, ← mem_outer m1 he, mem_base, outer_append, o1, List.mem_append, List.mem_singleton, or_assoc]
  have hin : ∃ k, s2.top.base.pc n = .inside r k ∧ s2.top.at' n = .out := by
    have I := taskInv (exec_base I2.exec) n
    rw [I2.base.pc_idle (q2 n).2] at I
    have hreq := (I.began r).1 ((M (by simp)).2 (.inr (.inl rfl)))
    have hl : (s2.top.base.pc n).left ≠ true := fun hl => by
      rcases I.left hl with ⟨st, ha⟩ | ha
      · rcases (M (by simp)).1 ha with h | h | h
        · exact an0 _ h
        · cases h
        · exact k3 _ h
      · rcases (M (by simp)).1 ha with h | h | h
        · exact ab0 h
        · cases h
        · exact k4 h
    rcases (q2 n).1 with hp | ⟨r', k, hp, ho⟩ | ⟨r', st, hp⟩ | ⟨q, hp⟩
    · rw [hp] at hreq; cases hreq
    · rw [hp] at hreq; cases hreq
      exact ⟨k, hp, ho⟩
    · rw [hp] at hl; exact absurd rfl hl
    · obtain ⟨i, g, hd⟩ := refused_of (exec_base I2.exec) (t := n) (q := q) (by rw [I2.base.pc_idle (q2 n).2]; exact hp)
      refine absurd hd (alone_fits (exec_base I2.exec) hcap (r := r) fun x r' h => ?_)
      rw [baseEvents_append] at h
      exact (b1 x r' ((mem_outer m1 (by simp)).2 ((List.mem_append.1 h).resolve_right (goes_begin y2 r')))).2
  obtain ⟨k, hp, ho⟩ := hin
  -- it calls the handler
  have x3 := x2.snoc (.top (.call ho hp) trivial fun t _ => (q2 t).2)
  have e3 := exec_append h0 x3
  have b3 : ∀ x r', .begin x r' ∈ outer (t0 ++ (t1 ++ t2 ++ [.top (.call n)])) → x < n + 1 ∧ r' = r := by
    intro x r' h
    rw [← List.append_assoc, outer_append] at h
    exact b2 x r' ((List.mem_append.1 h).resolve_right (by simp [outer]))
  obtain ⟨t4, s4, h4, q4⟩ := C91_finish e3 (few _ b3) hle
  have g4 := exec_weaken (Q := fun s e s' => DStep m c ryu le s e s' ∧ DGoes s e s') (fun _ _ _ h => ⟨h.1, h.2.1⟩) h4
  have x4 := exec_append x3 (exec_weaken (fun _ _ _ h => h.1) h4)
  have e4 := exec_append h0 x4
  have b4 : ∀ x r', .begin x r' ∈ outer (t0 ++ (t1 ++ t2 ++ [.top (.call n)] ++ t4)) → x < n + 1 ∧ r' = r := by
    intro x r' h
    rw [← List.append_assoc, outer_append] at h
    exact b3 x r' ((List.mem_append.1 h).resolve_right (dgoes_begin g4 r'))
  have na4 : .abandon n ∉ outer t4 := by
    clear h4 x4 e4 b4 q4
    induction g4 with
    | nil => simp [outer]
    | @snoc tr a e b _ hs ih =>
      rw [outer_append]
      intro hm
      rcases List.mem_append.1 hm with hm | hm
      · exact ih hm
      · cases e with
        | hist => cases hm
        | top e =>
          cases e with
          | base e =>
            cases e with
            | abandon u => exact hs.2.elim
            | on => cases hm
            | _ => simp [outer] at hm
          | _ => cases hm
  have na : .abandon n ∉ outer (t0 ++ (t1 ++ t2 ++ [.top (.call n)] ++ t4)) := by
    have a2 : .abandon n ∉ outer t2 := fun h => k4 (mem_base.1 ((mem_outer m2 (by simp)).1 h))
    simp [outer_append, o1, ab0, a2, na4, outer]
  obtain ⟨out, ht, ha⟩ := C91_export e4 (few _ b4) hle (q4 n) (by simp) na
  refine ⟨_, s4, out, x4, b4, q4, by simp, (List.mem_append.1 ht).resolve_left (nt out), ?_⟩
  rcases C91_outcome e4 (q4 n) (r := r) (by simp [outer_append, o1]) with h | ⟨_, h, _⟩ | ⟨i, g, h⟩
  · rw [outer_append] at h
    exact (List.mem_append.1 h).resolve_left fi0
  · exact absurd ha (h 200)
  · obtain ⟨p4, a4, m4, I4⟩ := d_inv e4
    refine absurd ?_ (alone_fits (exec_base I4.exec) hcap (r := r) (i := i) (t := n) (g := g)
      fun x r' h => (b4 x r' ((mem_outer m4 (by simp)).2 h)).2)
    rw [mem_base]
    exact (shows_lab m4).1 h

theorem stepwise_rests (cap n : Nat) : DAtRest (.new cap n) := fun t => ⟨new_rests cap t, fun _ => rfl⟩

theorem mem_outer_mid {A B : List DEvent} {x : DEvent} {e : Event} (hx : outer [x] = []) (h : e ∈ outer (A ++ x :: B)) :
    e ∈ outer A ∨ e ∈ outer B := by
  rw [← List.singleton_append, outer_append, outer_append, hx, List.nil_append] at h
  exact List.mem_append.1 h

/-- C90 and C91: there are runs with two exports, one after the other, and all at rest after them. -/
example (m : Mode) (c : Vec → ShardConf Key) (ryu : F64 → Bytes) (r : Req) :
    ∃ le A B C s out out', thresholds = .ok le ∧
      Exec (DStep m c ryu le) (.new 1 le.length) (A ++ .top (.text 0 out) :: (B ++ .top (.text 1 out') :: C)) s ∧
      FewRequests (outer (A ++ .top (.text 0 out) :: (B ++ .top (.text 1 out') :: C))) ∧ DAtRest s ∧
      .finish 0 ∈ outer (A ++ .top (.text 0 out) :: B) ∧ .top (.call 0) ∈ A ++ .top (.text 0 out) :: B ∧
      .top (.call 1) ∈ B ++ .top (.text 1 out') :: C ∧ .finish 1 ∈ outer (B ++ .top (.text 1 out') :: C) := by
  obtain ⟨le, hle, _⟩ := C80_thresholds
  obtain ⟨tr, s, out, h1, b1, q1, d1, e1, f1⟩ := stepwise_again (m := m) (c := c) (ryu := ryu) hle (cap := 1) (by decide) r
    (n := 0) (by decide) .nil (by simp [outer]) (stepwise_rests 1 le.length)
  obtain ⟨tr', s', out', h2, b2, q2, d2, e2, f2⟩ := stepwise_again hle (by decide) r (n := 1) (by decide) h1 b1 q1
  obtain ⟨A, B₁, rfl⟩ := List.append_of_mem e1
  obtain ⟨B₂, C, rfl⟩ := List.append_of_mem e2
  have hx := exec_append h1 h2
  have heq : A ++ .top (.text 0 out) :: B₁ ++ (B₂ ++ .top (.text 1 out') :: C) =
    A ++ .top (.text 0 out) :: ((B₁ ++ B₂) ++ .top (.text 1 out') :: C) := by simp
  rw [heq] at hx
  rw [heq] at b2
  refine ⟨le, A, B₁ ++ B₂, C, s', out, out', hle, hx, ?_, q2, ?_, ?_, ?_, ?_⟩
  · intro ts hnd hts
    have : ts.length ≤ (List.range 2).length := (hnd.subperm fun x hx => by
      obtain ⟨r', h⟩ := hts x hx
      exact List.mem_range.2 (b2 x r' h).1).length_le
    exact Nat.lt_of_le_of_lt this (by decide)
  · rw [← List.singleton_append, outer_append, outer_append, outer_append]
    rcases mem_outer_mid rfl f1 with h | h <;> simp [h]
  · rcases List.mem_append.1 d1 with h | h
    · simp [h]
    · rcases List.mem_cons.1 h with h | h
      · cases h
      · simp [h]
  · rcases List.mem_append.1 d2 with h | h
    · simp [h]
    · rcases List.mem_cons.1 h with h | h
      · cases h
      · simp [h]
  · rw [← List.singleton_append, outer_append, outer_append, outer_append]
    rcases mem_outer_mid rfl f2 with h | h <;> simp [h]

end Measured.Server
