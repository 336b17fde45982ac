import Verif.Proof.ExportProgress

/-! # Proofs about the example server: somebody can go on, in the handler -/

namespace Measured.Server
open Measured.Conc Measured.Spec

theorem SnapOk.back {K U : Type} {l snap : List (K × List U)} (h : SnapOk l snap) {j : Nat} {k : K} {old : List U}
    (hc : snap[j]? = some (k, old)) : ∃ cur, l[j]? = some (k, cur) ∧ old <+: cur := by
  induction h generalizing j with
  | nil => simp at hc
  | @cons a b snap l h1 _ ih =>
    cases j with
    | zero =>
      simp only [List.getElem?_cons_zero, Option.some.injEq] at hc
      subst hc
      exact ⟨b.2, by rw [List.getElem?_cons_zero]; exact congrArg some (Prod.ext h1.1.symm rfl), h1.2⟩
    | succ j => exact ih (by simpa using hc)

section
variable {m : Mode} {c : Vec → ShardConf Key} {ryu : F64 → Bytes} {le : List F64} {cap : Nat} {tr : List EEvent} {s : ESys} {t : Tid}

/-- Who collects can go on, unless it waits for a lock. -/
theorem collect_can (hb : Exec (Step m c) (.new cap) (baseEvents tr) s.base) (hlen : FewRequests (baseEvents tr))
    (hle : thresholds = .ok le) {i : Vec} {r : Req} {k' : Key} (hat : s.at' t = .pass i) (hp : s.base.pc t = .inside r k')
    (hok : PlaceOk s.base t i .pass) (hw : ((s.base.vecs.own i).vec.thr t).pc.waits = false) : CanGo m c ryu le s := by
  have hmv : ∀ e, InCollect t e → Moves t (s.base.pc t) (.on i e) (.inside r k') := fun e he => by
    rw [hp]; exact .collect r k' i he
  have hsame : InternsOwn (s.base.pc t) (s.base.vecs.heap 0) (s.base.vecs.heap 0) := fun v hv => .inl hv
  have snap := snap_inv (to_map hb i) t
  obtain ⟨hpass, hg⟩ := hok
  generalize hL : (s.base.vecs.own i).pc t = lab at hpass
  generalize hQ : ((s.base.vecs.own i).vec.thr t).pc = q at hpass hw
  generalize hS : (s.base.vecs.own i).seen t = seen at hpass
  have hL' : (s.base.vecs.at i).lab.pc t = lab := hL
  cases hpass with
  | collect sh acc => cases hw
  | scan sh j acc sn =>
    cases hj : ((s.base.vecs.own i).vec.shards sh)[j]? with
    | none =>
      refine pass_can hat hp (.vec (SStep.passNext (s.base.vecs.own i).vec t sh j acc sn hQ (List.getElem?_eq_none_iff.1 hj)) trivial) .silent rfl
        ?_ (by rintro f ⟨⟩; trivial)
      show (((s.base.vecs.put i _).own i).vec.thr t).pc ≠ _
      rw [put_own]
      show ((SSys.goto _ t _).thr t).pc ≠ _
      rw [goto_thr]
      simp
    | some q =>
      obtain ⟨k, us⟩ := q
      have hid : k ∈ (s.base.vecs.at i).lab.ids := key_ids hb (List.mem_of_getElem? hj)
      by_cases hdec : ∃ index env, decodeFixed i.groups.fixed k.1 (fun _ => none) = .ok (index, env) ∧ debugAssert m (index = 0) = .ok ()
      · obtain ⟨index, env, h1, h2⟩ := hdec
        refine pass_can hat hp (.lab (.decodeStart hL' hid h1 h2)) .tau rfl ?_ (by rintro f ⟨⟩)
        refine ⟨sh, j, acc, sn, k, us, env, i.groups.dynamics, k.2, hQ, hj, hS, ?_, ?_⟩
        · show ((s.base.vecs.put i _).own i).pc t = _
          rw [put_own]
          exact label_goto_self _ _ _
        · show ((s.base.vecs.put i _).own i).pc t ≠ _
          rw [put_own, hL]
          show (LabelSys.goto _ t _).pc t ≠ _
          rw [label_goto_self]
          simp
      · have := hb.snoc (.on (.lab (.decodePanic hL' hid (fun index env h1 h2 => hdec ⟨index, env, h1, h2⟩))) (hmv _ .decodePanic) hsame)
        exact absurd (by simp) (C80_no_panic this i t).1
  | decode sh j acc sn k old h env rest ks =>
    have npanic : ¬ ∃ l, LabelStep m threadedRodeo i.groups (s.base.vecs.at i).lab (.panic t) l ∧ l.heap 0 = s.base.vecs.heap 0 := by
      rintro ⟨l, hl, hh⟩
      have := hb.snoc (.on (.lab hl) (hmv _ .decodePanic) (by
        show InternsOwn _ _ (l.heap 0)
        rw [hh]; exact hsame))
      exact absurd (by simp) (C80_no_panic this i t).1
    have npanic' : ¬ (rest = [] ∧ ks ≠ [] ∨ rest ≠ [] ∧ ks = [] ∨ rest = [] ∧ ks = [] ∧ ∀ g, buildGroup env ≠ .ok g) :=
      fun hc => npanic ⟨_, .decodeEndPanic hL' hc, rfl⟩
    obtain ⟨cur, hcur, _⟩ := SnapOk.back (snap sh j acc sn hQ) h
    cases rest with
    | nil =>
      cases ks with
      | cons a b => exact absurd (.inl ⟨rfl, by simp⟩) npanic'
      | nil =>
        by_cases hbuild : ∃ g, buildGroup env = .ok g
        · obtain ⟨g, hg'⟩ := hbuild
          exact pass_can hat hp (.lab (.decodeEnd hL' hg')) (.decoded _ _) rfl trivial (by rintro f ⟨⟩)
        · exact absurd (.inr (.inr ⟨rfl, rfl, fun g hg' => hbuild ⟨g, hg'⟩⟩)) npanic'
    | cons p rest =>
      obtain ⟨rr, jj⟩ := p
      cases ks with
      | nil => exact absurd (.inr (.inl ⟨by simp, rfl⟩)) npanic'
      | cons a ks =>
        by_cases hres : ∃ v, threadedRodeo.decode ((s.base.vecs.at i).lab.heap rr) a = .ok v
        · obtain ⟨v, hv⟩ := hres
          refine pass_can hat hp (.lab (.resolve hL' hv)) .tau rfl ?_ (by rintro f ⟨⟩)
          refine ⟨sh, j, acc, sn, k, cur, env.bind jj v, rest, ks, hQ, hcur, hS, ?_, ?_⟩
          · show ((s.base.vecs.put i _).own i).pc t = _
            rw [put_own]
            exact label_goto_self _ _ _
          · show ((s.base.vecs.put i _).own i).pc t ≠ _
            rw [put_own, hL]
            show (LabelSys.goto _ t _).pc t ≠ _
            rw [label_goto_self]
            simp
        · exact absurd ⟨_, .resolvePanic hL' (fun v hv => hres ⟨v, hv⟩), rfl⟩ npanic
  | write sh j acc sn k old h g =>
    obtain ⟨cur, hcur, hpre⟩ := SnapOk.back (snap sh j acc sn hQ) h
    have hs : Step m c s.base (.on i (.shown t k g old)) _ :=
      .on (.shown (.emit (s.base.vecs.own i).vec t sh j acc sn k old old cur hQ hcur h (List.prefix_refl _) hpre) hS)
        (hmv _ (.shown k g old)) hsame
    obtain ⟨h1, h2⟩ := shown_updates hb hlen hs
    obtain ⟨c1, c2, c3⟩ := calls_ok hb
    obtain ⟨e', h'⟩ := entry_ok m ryu hle i g old h1 (by
      cases i with
      | requests => intro u hu; obtain ⟨v, hv⟩ := h2 u hu; exact c1 v k u hv
      | responses => intro u hu; obtain ⟨v, hv⟩ := h2 u hu; exact c2 v k u hv
      | duration => intro u hu; obtain ⟨v, hv⟩ := h2 u hu; exact c3 v k u hv) s.enc
    exact ⟨_, _, .entry hat hs h', trivial, trivial⟩

theorem crashed_of (h : Exec (EStep m c ryu le) (.new cap) tr s) (hc : s.at' t = .crashed) : .crash t ∈ tr := by
  induction h with
  | nil => cases hc
  | @snoc tr a e b he hs ih =>
    rcases step_at hs t with h | ⟨_, h, _⟩ | ⟨_, h, _⟩ | ⟨_, h, _⟩ | ⟨i, _, h, _⟩ | ⟨i, _, _, h, _⟩ | ⟨_, _, h, _⟩ | ⟨_, _, h, _⟩ | ⟨_, rfl⟩
    · exact List.mem_append_left _ (ih (by rw [← h, hc]))
    · rw [h] at hc; cases hc
    · rw [h] at hc; cases hc
    · rw [h] at hc; cases hc
    · rw [h] at hc; cases hc
    · rw [h] at hc; cases i <;> cases hc
    · rw [h] at hc; cases hc
    · rw [h] at hc; cases hc
    · simp

/-- The request waits for a lock: for the mutex, or for a shard of a vector. -/
def Waits (s : ESys) (t : Tid) : Prop := s.at' t = .wait ∨ ∃ i, ((s.base.vecs.own i).vec.thr t).pc.waits = true

/-- Who neither rests nor waits can go on. -/
theorem free_can (h : Exec (EStep m c ryu le) (.new cap) tr s) (hlen : FewRequests (baseEvents tr)) (hle : thresholds = .ok le)
    (hr : ¬ Rests s t) (hw : ¬ Waits s t) : CanGo m c ryu le s := by
  have hb := exec_base h
  have I := place_inv h (C88_no_crash h hlen hle)
  have hw' : ∀ i, ((s.base.vecs.own i).vec.thr t).pc.waits = false := fun i => by
    cases hc : ((s.base.vecs.own i).vec.thr t).pc.waits with
    | false => rfl
    | true => exact absurd (.inr ⟨i, hc⟩) hw
  have own : ∀ {e p}, (∀ i f, e ≠ .on i f) → Moves t (s.base.pc t) e p →
      Step m c s.base e ⟨s.base.vecs, Function.update s.base.pc t p⟩ := fun h1 h2 => .own h1 h2
  cases hat : s.at' t with
  | out =>
    by_cases hrole : ∃ i, (s.base.pc t).role i ≠ .none
    · obtain ⟨i, hi⟩ := hrole
      have ok := I.ok t i
      rw [hat] at ok
      change PlaceOk s.base t i ((s.base.pc t).role i) at ok
      cases hR : (s.base.pc t).role i with
      | none => exact absurd hR hi
      | encode g => rw [hR] at ok; exact encode_can hb hat hR ok
      | get k => rw [hR] at ok; exact lookup_can hb hat hR ok (hw' i)
      | use k => rw [hR] at ok; exact use_can hb hat hR ok
      | pass => cases i <;> cases hp : s.base.pc t <;> rw [hp] at hR <;> cases hR
    · have hn : ∀ i, (s.base.pc t).role i = .none := fun i => by
        by_contra hc
        exact hrole ⟨i, hc⟩
      rcases no_role hn with hp | ⟨r, k, hp⟩ | ⟨r, k, hp⟩ | ⟨r, st, hp⟩ | ⟨r, st, hp⟩ | ⟨q, hp⟩
      · exact absurd (.inl hp) hr
      · exact ⟨_, _, .run hat (own (e := .enter t) (by simp) (by rw [hp]; exact .enter r k)) (by exact rfl) trivial, trivial, trivial⟩
      · exact absurd (.inr (.inl ⟨r, k, hp, hat⟩)) hr
      · exact ⟨_, _, .run hat (own (e := .finish t) (by simp) (by rw [hp]; exact .finish r st)) (by exact rfl) trivial, trivial, trivial⟩
      · exact absurd (.inr (.inr (.inl ⟨r, st, hp⟩))) hr
      · exact absurd (.inr (.inr (.inr ⟨q, hp⟩))) hr
  | wait => exact absurd (.inl hat) hw
  | head i =>
    obtain ⟨r, k, hp⟩ := I.inside t (by rw [hat]; simp)
    have ok := I.ok t i
    rw [hat, hp] at ok
    change PlaceOk s.base t i (Pc.role i (.inside r k)) at ok
    rw [inside_role] at ok
    have hth := ok.2.1
    obtain ⟨e', he⟩ := head_ok m ryu i s.enc
    exact ⟨_, _, .head hat (.on (.vec (.startPass (s.base.vecs.own i).vec t (by rw [hth])) trivial) (by rw [hp]; exact .collect r k i .start)
      (fun v hv => .inl hv)) he, trivial, trivial⟩
  | pass i =>
    obtain ⟨r, k, hp⟩ := I.inside t (by rw [hat]; simp)
    have ok := I.ok t i
    rw [hat] at ok
    simp only [roleOf, if_pos] at ok
    exact collect_can hb hlen hle hat hp ok (hw' i)
  | fin => exact ⟨_, _, .finish hat rfl, trivial, trivial⟩
  | made out =>
    obtain ⟨r, k, hp⟩ := I.inside t (by rw [hat]; simp)
    refine ⟨_, _, .answer hat (own (e := .answer t 200) (by simp) (by rw [hp]; exact .answer r k 200 (by decide))), ?_, trivial⟩
    show s.at' t ≠ .out
    rw [hat]; simp
  | crashed => exact absurd (crashed_of h hat) (C88_no_crash h hlen hle t)

/-- A request that rests does nothing with any vector. -/
theorem rests_out (I : PlaceInv s.base s.at') (hr : Rests s t) : s.at' t = .out ∧ ∀ i, (s.base.pc t).role i = .none := by
  have hout : (∀ r k, s.base.pc t ≠ .inside r k) → s.at' t = .out := fun h => by
    by_contra hc
    obtain ⟨r, k, hp⟩ := I.inside t hc
    exact h r k hp
  rcases hr with hp | ⟨r, k, hp, h⟩ | ⟨r, st, hp⟩ | ⟨q, hp⟩
  · exact ⟨hout (by simp [hp]), fun i => by rw [hp]; cases i <;> rfl⟩
  · exact ⟨h, fun i => by rw [hp]; exact inside_role ..⟩
  · exact ⟨hout (by simp [hp]), fun i => by rw [hp]; cases i <;> rfl⟩
  · exact ⟨hout (by simp [hp]), fun i => by rw [hp]; cases i <;> rfl⟩

theorem role_one {i j : Vec} {p : Pc} {k : Key} (h : p.role j = .get k) (hij : i ≠ j) : p.role i = .none := by
  cases j <;> cases p <;> first | cases h | skip
  all_goals cases i <;> first | rfl | exact absurd rfl hij

/-- A request that rests or waits holds no lock of a shard. -/
theorem no_locks (I : PlaceInv s.base s.at') (hr : Rests s t ∨ Waits s t) (i : Vec) (sh : Nat) :
    ¬ ((s.base.vecs.own i).vec.thr t).HoldsW (c i) sh ∧ ¬ ((s.base.vecs.own i).vec.thr t).HoldsR (c i) sh := by
  have hfree : ∀ th : SThread Key i.Call, th.guards = [] → th.pc.writeLock (c i) = none → th.pc.readLock (c i) = none →
      ¬ th.HoldsW (c i) sh ∧ ¬ th.HoldsR (c i) sh := by
    intro th h1 h2 h3
    refine ⟨fun h => ?_, ?_⟩
    · unfold SThread.HoldsW at h; rw [h2] at h; cases h
    · rintro (h | ⟨k, hk, _⟩)
      · rw [h3] at h; cases h
      · rw [h1] at hk; cases hk
  have ok := I.ok t i
  have hnone : ∀ j (r : Role j), PlaceOk s.base t j r → r = .none → (s.base.vecs.own j).vec.thr t = ⟨.idle, []⟩ := by
    rintro j r h rfl; exact h.2.1
  have idle : (s.base.vecs.own i).vec.thr t = ⟨.idle, []⟩ → 
      ¬ ((s.base.vecs.own i).vec.thr t).HoldsW (c i) sh ∧ ¬ ((s.base.vecs.own i).vec.thr t).HoldsR (c i) sh := by
    intro h; rw [h]; exact hfree _ rfl rfl rfl
  rcases hr with hr | hr | ⟨j, hj⟩
  · obtain ⟨h1, h2⟩ := rests_out I hr
    exact idle (hnone i _ ok (by rw [h1]; exact h2 i))
  · obtain ⟨r, k, hp⟩ := I.inside t (by rw [hr]; simp)
    exact idle (hnone i _ ok (by rw [hr, hp]; exact inside_role ..))
  · by_cases hij : i = j
    · subst hij
      have hg : ((s.base.vecs.own i).vec.thr t).guards = [] := by
        generalize roleOf i (s.base.pc t) (s.at' t) = R at ok
        cases R with
        | none => rw [ok.2.1]
        | encode g => rw [ok.2.1]
        | get k => exact ok.2.1.2
        | use k => rw [ok.2.1] at hj; cases hj
        | pass => exact ok.2
      refine hfree _ hg ?_ ?_
      · cases hp : ((s.base.vecs.own i).vec.thr t).pc <;> rw [hp] at hj <;> first | rfl | cases hj
      · cases hp : ((s.base.vecs.own i).vec.thr t).pc <;> rw [hp] at hj <;> first | rfl | cases hj
    · refine idle (hnone i _ ok ?_)
      have okj := I.ok t j
      have hout : ∀ {q}, s.at' t = q → q ≠ .out → (∀ l, q ≠ .pass l) → False := by
        intro q h1 h2 h3
        obtain ⟨r, k, hp⟩ := I.inside t (by rw [h1]; exact h2)
        rw [hnone j _ okj (by
          rw [h1, hp]
          cases q with
          | pass l => exact absurd rfl (h3 l)
          | _ => exact inside_role ..)] at hj
        cases hj
      cases hat : s.at' t with
      | out =>
        rw [hat] at okj
        change PlaceOk s.base t j ((s.base.pc t).role j) at okj
        cases hR : (s.base.pc t).role j with
        | none => rw [hnone j _ okj hR] at hj; cases hj
        | encode g => rw [hR] at okj; rw [okj.2.1] at hj; cases hj
        | get k => exact role_one hR hij
        | use k => rw [hR] at okj; rw [okj.2.1] at hj; cases hj
        | pass => cases j <;> cases hp : s.base.pc t <;> rw [hp] at hR <;> cases hR
      | pass l =>
        obtain ⟨r, k, hp⟩ := I.inside t (by rw [hat]; simp)
        rw [hat, hp] at okj
        have hl : j = l := by
          by_contra hne
          rw [hnone j _ okj (by rw [roleOf, if_neg hne]; exact inside_role ..)] at hj
          cases hj
        subst hl
        rw [hp, roleOf, if_neg hij]
        exact inside_role ..
      | _ => exact (hout hat (by simp) (by simp)).elim

/-- Who waits for a lock of a shard. -/
theorem waits_role (I : PlaceInv s.base s.at') {i : Vec} (hw : ((s.base.vecs.own i).vec.thr t).pc.waits = true) :
    (s.at' t = .out ∧ ∃ k, (s.base.pc t).role i = .get k ∧
      (((s.base.vecs.own i).vec.thr t).pc = .getRead k ∨ ((s.base.vecs.own i).vec.thr t).pc = .getWrite k)) ∨
    (s.at' t = .pass i ∧ (∃ r k, s.base.pc t = .inside r k) ∧ ∃ sh acc, ((s.base.vecs.own i).vec.thr t).pc = .collect sh acc) := by
  have ok := I.ok t i
  cases hat : s.at' t with
  | out =>
    rw [hat] at ok
    change PlaceOk s.base t i ((s.base.pc t).role i) at ok
    cases hR : (s.base.pc t).role i with
    | none => rw [hR] at ok; rw [ok.2.1] at hw; cases hw
    | encode g => rw [hR] at ok; rw [ok.2.1] at hw; cases hw
    | get k =>
      rw [hR] at ok
      refine .inl ⟨rfl, k, rfl, ?_⟩
      rcases ok.2.1.1 with h | h | h | h | h | h | h | h
      · rw [h] at hw; cases hw
      · exact .inl h
      · rw [h] at hw; cases hw
      · rw [h] at hw; cases hw
      · exact .inr h
      · rw [h] at hw; cases hw
      · rw [h] at hw; cases hw
      · rw [h] at hw; cases hw
    | use k => rw [hR] at ok; rw [ok.2.1] at hw; cases hw
    | pass => cases i <;> cases hp : s.base.pc t <;> rw [hp] at hR <;> cases hR
  | pass l =>
    obtain ⟨r, k, hp⟩ := I.inside t (by rw [hat]; simp)
    rw [hat, hp] at ok
    by_cases hl : i = l
    · subst hl
      rw [roleOf, if_pos rfl] at ok
      obtain ⟨hpass, _⟩ := ok
      generalize (s.base.vecs.own i).pc t = lab at hpass
      generalize hQ : ((s.base.vecs.own i).vec.thr t).pc = q at hpass hw ⊢
      generalize (s.base.vecs.own i).seen t = seen at hpass
      cases hpass with
      | collect sh acc => exact .inr ⟨rfl, ⟨r, k, hp⟩, sh, acc, rfl⟩
      | _ => cases hw
    · rw [roleOf, if_neg hl, inside_role] at ok
      rw [ok.2.1] at hw; cases hw
  | _ =>
    obtain ⟨r, k, hp⟩ := I.inside t (by rw [hat]; simp)
    rw [hat, hp] at ok
    change PlaceOk s.base t i (Pc.role i (.inside r k)) at ok
    rw [inside_role] at ok
    rw [ok.2.1] at hw; cases hw

/-- If some request does not rest, then some request can go on. -/
theorem all_can (h : Exec (EStep m c ryu le) (.new cap) tr s) (hlen : FewRequests (baseEvents tr)) (hle : thresholds = .ok le)
    (hr : ¬ Rests s t) : CanGo m c ryu le s := by
  have I := place_inv h (C88_no_crash h hlen hle)
  by_cases hfree : ∃ u, ¬ Rests s u ∧ ¬ Waits s u
  · obtain ⟨u, h1, h2⟩ := hfree
    exact free_can h hlen hle h1 h2
  have hall : ∀ u, Rests s u ∨ Waits s u := fun u => by
    by_contra hc
    exact hfree ⟨u, fun h => hc (.inl h), fun h => hc (.inr h)⟩
  have hno : ∀ (i : Vec) u sh, ¬ ((s.base.vecs.own i).vec.thr u).HoldsW (c i) sh ∧ ¬ ((s.base.vecs.own i).vec.thr u).HoldsR (c i) sh :=
    fun i u sh => no_locks I (hall u) i sh
  have hvec : (s.at' t = .wait ∧ s.lock = none) ∨ ∃ u i, ((s.base.vecs.own i).vec.thr u).pc.waits = true := by
    rcases (hall t).resolve_left hr with hw | ⟨i, hi⟩
    · cases hl : s.lock with
      | none => exact .inl ⟨hw, rfl⟩
      | some u =>
        have hu : (s.at' u).has = true := ((lockInv h).has u).2 hl
        rcases hall u with hru | hwu | ⟨i, hi⟩
        · rw [(rests_out I hru).1] at hu; cases hu
        · rw [hwu] at hu; cases hu
        · exact .inr ⟨u, i, hi⟩
    · exact .inr ⟨t, i, hi⟩
  rcases hvec with ⟨hw, hl⟩ | ⟨u, i, hi⟩
  · exact ⟨_, _, .lock hw hl, trivial, trivial⟩
  by_cases hwr : ∃ u sh, ((s.base.vecs.own i).vec.thr u).WaitsW (c i) sh
  · obtain ⟨u, sh, k, hk, hp | hp⟩ := hwr
    · rcases waits_role I (i := i) (t := u) (by rw [hp]; rfl) with ⟨hout, k', hR, h' | h'⟩ | ⟨_, _, _, _, h'⟩
      · rw [hp] at h'; cases h'
      · rw [hp] at h'; cases h'
        exact get_can hout hR (.lockWrite (s.base.vecs.own i).vec u k hp fun v => hno i v _) (.lockW _) trivial trivial
      · rw [hp] at h'; cases h'
    · rcases waits_role I (i := i) (t := u) (by rw [hp]; rfl) with ⟨hout, k', hR, h' | h'⟩ | ⟨_, _, _, _, h'⟩ <;>
        (rw [hp] at h'; cases h')
  · have hstrict : ∀ sh u, ¬ ((s.base.vecs.own i).vec.thr u).WaitsW (c i) sh := fun sh u h => hwr ⟨u, sh, h⟩
    rcases waits_role I hi with ⟨hout, k, hR, hp | hp⟩ | ⟨hat, ⟨r, k, hin⟩, sh, acc, hp⟩
    · exact get_can hout hR (.lockRead (s.base.vecs.own i).vec u k hp fun v => (hno i v _).1) (.lockR _) trivial (hstrict _)
    · exact absurd ⟨k, rfl, .inl hp⟩ (hstrict ((c i).shardOf k) u)
    · by_cases hsh : sh < (c i).n
      · exact pass_can hat hin (.vec (.passLock (s.base.vecs.own i).vec u sh acc hp hsh fun v => (hno i v _).1) trivial) (.lockR _) rfl trivial
          (by rintro f ⟨⟩; exact hstrict _)
      · exact ⟨_, _, .next hat (.on (.vec (.endPass (s.base.vecs.own i).vec u sh acc hp (Nat.le_of_not_lt hsh)) trivial)
          (by rw [hin]; exact .collect r k i (.finish acc)) (fun v hv => .inl hv)), trivial, trivial⟩

end

end Measured.Server
