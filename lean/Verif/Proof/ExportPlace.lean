import Verif.Proof.ExportRoles

/-! # Proofs about the example server: where the requests are -/

namespace Measured.Server
open Measured.Conc Measured.Spec

/-- The request is on the vector where it should be. -/
def PlaceOk (s : Sys) (t : Tid) (i : Vec) (r : Role i) : Prop :=
  RoleOk ((s.vecs.own i).pc t) ((s.vecs.own i).vec.thr t) ((s.vecs.own i).seen t) r

/-- Where all requests are. -/
structure PlaceInv (b : Sys) (at' : Tid → Hpc) : Prop where
  inside : ∀ t, at' t ≠ .out → ∃ r k, b.pc t = .inside r k
  ok : ∀ t i, PlaceOk b t i (roleOf i (b.pc t) (at' t))

section
variable {m : Mode} {c : Vec → ShardConf Key} {s s' : Sys} {t : Tid} {i : Vec} {e : LVEvent Lab i.Call i.groups.n}

/-- A step on a vector, and whose it is. -/
theorem on_step (hs : Step m c s (.on i e) s') (ht : (Event.on i e).Of t) :
    LVStep m threadedRodeo i.groups (c i) (s.vecs.at i) e (s'.vecs.at i) ∧ Moves t (s.pc t) (.on i e) (s'.pc t) ∧
      (∀ u, u ≠ t → s'.pc u = s.pc u) ∧ (∀ j, j ≠ i → s'.vecs.own j = s.vecs.own j) ∧
      ∀ u, u ≠ t → ∀ j r, PlaceOk s u j r → PlaceOk s' u j r := by
  cases hs with
  | own hn _ => exact absurd rfl (hn _ _)
  | @on u _ _ x p hl hm hi =>
    obtain rfl := of_unique ht (moves_of hm)
    have ho : ∀ j, j ≠ i → (s.vecs.put i x).own j = s.vecs.own j := fun j hj => Function.update_of_ne hj _ _
    refine ⟨by rw [at_put]; exact hl, by show Moves t _ _ (Function.update s.pc t p t); rw [Function.update_self]; exact hm,
      fun u hu => Function.update_of_ne hu _ _, ho, fun u hu j r h => ?_⟩
    by_cases hj : j = i
    · subst hj
      obtain ⟨h1, h2, h3⟩ := lv_others hl ht hu
      unfold PlaceOk
      have e1 : (s.vecs.put j x).own j = ⟨x.lab.ids, x.lab.pc, x.vec, x.seen⟩ := Function.update_self _ _ _
      show RoleOk (((s.vecs.put j x).own j).pc u) (((s.vecs.put j x).own j).vec.thr u) (((s.vecs.put j x).own j).seen u) r
      rw [e1]
      show RoleOk (x.lab.pc u) (x.vec.thr u) (x.seen u) r
      rw [h1, h2, h3]
      exact h
    · unfold PlaceOk
      show RoleOk (((s.vecs.put i x).own j).pc u) (((s.vecs.put i x).own j).vec.thr u) (((s.vecs.put i x).own j).seen u) r
      rw [ho j hj]
      exact h

/-- A step outside of the vectors. -/
theorem own_step {e : Event} (hs : Step m c s e s') (he : ∀ i f, e ≠ .on i f) (ht : e.Of t) :
    Moves t (s.pc t) e (s'.pc t) ∧ s'.vecs = s.vecs ∧ ∀ u, u ≠ t → s'.pc u = s.pc u := by
  cases hs with
  | on => exact absurd rfl (he _ _)
  | @own u _ p _ hm =>
    obtain rfl := of_unique ht (moves_of hm)
    exact ⟨by show Moves t _ _ (Function.update s.pc t p t); rw [Function.update_self]; exact hm, rfl,
      fun u hu => Function.update_of_ne hu _ _⟩

end

/-- In another vector than the one of the pass. -/
theorem roleOf_other {i j : Vec} {p : Pc} (h : i ≠ j) : roleOf i p (.pass j) = p.role i := if_neg h

theorem roleOf_pass {i : Vec} {p : Pc} : roleOf i p (.pass i) = .pass := if_pos rfl

theorem inside_role {r : Req} {k : Key} (i : Vec) : (Pc.inside r k).role i = .none := by cases i <;> rfl

theorem roleOf_out {i : Vec} {p : Pc} {h : Hpc} (hh : ∀ j, h ≠ .pass j) : roleOf i p h = p.role i := by
  cases h with
  | pass j => exact absurd rfl (hh j)
  | _ => rfl

theorem next_role {i j : Vec} {p : Pc} : roleOf j p i.next = p.role j := by cases i <;> rfl

section
variable {m : Mode} {c : Vec → ShardConf Key} {ryu : F64 → Bytes} {le : List F64} {cap : Nat} {tr : List EEvent} {s s' : ESys}

theorem collect_stays {t : Tid} {i : Vec} {e : LVEvent Lab i.Call i.groups.n} {p p' : Pc} {r : Req} {k : Key}
    (h : Moves t p (.on i e) p') (hp : p = .inside r k) : p' = .inside r k := by
  subst hp
  cases h; rfl

theorem place_step (h : Exec (EStep m c ryu le) (.new cap) tr s) (I : PlaceInv s.base s.at') {e : EEvent} (hs : EStep m c ryu le s e s')
    (hne : ∀ t, e ≠ .crash t) : PlaceInv s'.base s'.at' := by
  have hb := exec_base h
  have calm : ∀ {i : Vec} {e : LVEvent Lab i.Call i.groups.n} {x : Sys} {t : Tid}, Step m c s.base (.on i e) x →
      e ≠ .lab (.panic t) ∧ e ≠ .vec (.panic t) := by
    intro i e x t hs
    have := C80_no_panic (hb.snoc hs) i t
    constructor
    · rintro rfl; exact this.1 (by simp)
    · rintro rfl; exact this.2 (by simp)
  have snap : ∀ (i : Vec) (t : Tid) sh j acc snap, ((s.base.vecs.at i).vec.thr t).pc = .scan sh j acc snap →
      SnapOk ((s.base.vecs.at i).vec.shards sh) snap := fun i t sh j acc snap hp => snap_inv (to_map hb i) t sh j acc snap hp
  -- a step of the handler on the vector of its pass
  have pas : ∀ {t : Tid} {i : Vec} {e : LVEvent Lab i.Call i.groups.n} {x : Sys} {q : Hpc}, Step m c s.base (.on i e) x →
      (Event.on i e).Of t → s.at' t ≠ .out → (∀ j, j ≠ i → s.at' t ≠ .pass j) →
      (PlaceOk s.base t i (roleOf i (s.base.pc t) (s.at' t)) → PlaceOk x t i (roleOf i (x.pc t) q)) →
      (∀ j, j ≠ i → q ≠ .pass j) →
      PlaceInv x (Function.update s.at' t q) := by
    intro t i e x q hs ht hout hnp hok hq
    obtain ⟨h1, h2, h3, h4, h5⟩ := on_step hs ht
    obtain ⟨r, k, hin⟩ := I.inside t hout
    have hin' := collect_stays h2 hin
    refine ⟨fun u hu => ?_, fun u j => ?_⟩
    · by_cases hut : u = t
      · subst hut; exact ⟨r, k, hin'⟩
      · have hu : Function.update s.at' t q u ≠ .out := hu
        rw [Function.update_of_ne hut] at hu
        show ∃ r k, x.pc u = _
        rw [h3 u hut]; exact I.inside u hu
    · show PlaceOk x u j (roleOf j (x.pc u) (Function.update s.at' t q u))
      by_cases hut : u = t
      · subst hut
        rw [Function.update_self]
        by_cases hj : j = i
        · subst hj; exact hok (I.ok u j)
        · have := I.ok u j
          unfold PlaceOk at this ⊢
          rw [h4 j hj]
          have e1 : roleOf j (x.pc u) q = .none := by
            rw [hin']
            cases q with
            | pass l =>
              by_cases hl : j = l
              · subst hl; exact absurd rfl (hq j hj)
              · rw [roleOf_other hl, inside_role]
            | _ => exact inside_role j
          have e2 : roleOf j (s.base.pc u) (s.at' u) = .none := by
            rw [hin]
            cases hat : s.at' u with
            | pass l =>
              by_cases hl : j = l
              · subst hl; exact absurd hat (hnp j hj)
              · rw [roleOf_other hl, inside_role]
            | _ => exact inside_role j
          rw [e1]
          rw [e2] at this
          exact this
      · rw [Function.update_of_ne hut, h3 u hut]
        exact h5 u hut j _ (I.ok u j)
  -- the handler, not on a vector
  have hand : ∀ {t : Tid} {q : Hpc}, (∃ r k, s.base.pc t = .inside r k) → (∀ i, s.at' t ≠ .pass i) → (∀ i, q ≠ .pass i) →
      PlaceInv s.base (Function.update s.at' t q) := by
    intro t q hin hp hq
    refine ⟨fun u hu => ?_, fun u j => ?_⟩
    · by_cases hut : u = t
      · subst hut; exact hin
      · have hu : Function.update s.at' t q u ≠ .out := hu
        rw [Function.update_of_ne hut] at hu
        exact I.inside u hu
    · show PlaceOk s.base u j (roleOf j (s.base.pc u) (Function.update s.at' t q u))
      by_cases hut : u = t
      · subst hut
        have := I.ok u j
        rw [roleOf_out hp] at this
        rw [Function.update_self, roleOf_out hq]
        exact this
      · rw [Function.update_of_ne hut]
        exact I.ok u j
  -- an own step of the middleware
  have own : ∀ {t : Tid} {e : Event} {x : Sys}, Step m c s.base e x → e.Of t → (∀ i f, e ≠ .on i f) →
      (∀ i, s.at' t ≠ .pass i) → PlaceInv x (Function.update s.at' t .out) := by
    intro t e x hs ht he hp
    obtain ⟨h1, h2, h3⟩ := own_step hs he ht
    refine ⟨fun u hu => ?_, fun u j => ?_⟩
    · by_cases hut : u = t
      · subst hut; exact absurd (Function.update_self ..) hu
      · have hu : Function.update s.at' t .out u ≠ .out := hu
        rw [Function.update_of_ne hut] at hu
        show ∃ r k, x.pc u = _
        rw [h3 u hut]
        exact I.inside u hu
    · show PlaceOk x u j (roleOf j (x.pc u) (Function.update s.at' t .out u))
      unfold PlaceOk
      rw [h2]
      by_cases hut : u = t
      · subst hut
        have := I.ok u j
        rw [roleOf_out hp] at this
        rw [Function.update_self]
        obtain ⟨e1, e2⟩ := own_role h1 he j
        rw [e1] at this
        exact RoleOk.start this e2
      · rw [Function.update_of_ne hut, h3 u hut]
        exact I.ok u j
  have keep : ∀ {t : Tid} {x : Sys}, PlaceInv x (Function.update s.at' t (s.at' t)) →
      PlaceInv x s.at' := by
    intro t x h
    rwa [Function.update_eq_self] at h
  cases hs with
  | @run t e x hout hs ht he =>
    by_cases hv : ∀ i f, e ≠ .on i f
    · have := own hs ht hv (by rw [hout]; simp)
      rw [← hout] at this
      exact keep this
    · push Not at hv
      obtain ⟨i, f, rfl⟩ := hv
      obtain ⟨h1, h2, h3, h4, h5⟩ := on_step hs ht
      have hni : ∀ r k, s.base.pc t ≠ .inside r k := by
        intro r k hp
        have h2' := h2
        rw [hp] at h2'
        cases f with
        | lab g =>
          cases g with
          | tau u =>
            obtain ⟨g, _, _, _, hg, _⟩ := he
            rw [hp] at hg
            cases i <;> cases hg
          | _ => exact he r k hp
        | _ => exact he r k hp
      obtain ⟨g1, g2⟩ := moves_role h2 hni
      refine ⟨fun u hu => ?_, fun u j => ?_⟩
      · have hut : u ≠ t := fun hut => by subst hut; exact hu hout
        show ∃ r k, x.pc u = _
        rw [h3 u hut]
        exact I.inside u hu
      · show PlaceOk x u j (roleOf j (x.pc u) (s.at' u))
        by_cases hut : u = t
        · subst hut
          rw [hout]
          have hI := I.ok u j
          rw [hout] at hI
          by_cases hj : j = i
          · subst hj
            refine role_step h1 g1 ?_ (calm hs) hI
            rintro rfl g hg
            obtain ⟨g', index, ks, rest, e1, e2, _⟩ := he
            have : g' = g := by
              generalize s.base.pc u = p at hg e1
              cases j <;> cases p <;> first | (cases hg; cases e1; rfl) | cases hg | cases e1
            subst this
            exact ⟨index, ks, rest, e2⟩
          · unfold PlaceOk
            rw [h4 j hj]
            have hI : RoleOk _ _ _ ((s.base.pc u).role j) := hI
            show RoleOk _ _ _ ((x.pc u).role j)
            rcases g2 j hj with hr | ⟨hr, g, hr'⟩
            · rw [← hr]; exact hI
            · rw [hr] at hI
              exact RoleOk.start hI (.inr (.inl ⟨g, hr'⟩))
        · rw [h3 u hut]
          exact h5 u hut j _ (I.ok u j)
  | @call t r k hout hp => exact hand ⟨r, k, hp⟩ (by rw [hout]; simp) (by simp)
  | @lock t hw hl => exact hand (I.inside t (by rw [hw]; simp)) (by rw [hw]; simp) (by simp)
  | @giveUp t x hw hs => exact own (t := t) hs rfl (by simp) (by rw [hw]; simp)
  | @head t i x enc hh hs he =>
    refine pas (t := t) hs rfl (by rw [hh]; simp) (by rw [hh]; simp) ?_ (fun j hj => by intro h; cases h; exact hj rfl)
    obtain ⟨h1, _⟩ := on_step (t := t) hs rfl
    obtain ⟨r, k, hin⟩ := I.inside t (by rw [hh]; simp)
    rw [hh, roleOf_pass, hin]
    rw [show roleOf i (Pc.inside r k) (.head i) = .none from inside_role i]
    exact start_role h1
  | @headCrash t i o enc hh he ho => exact absurd rfl (hne t)
  | @pass t i e x hh hs ht he =>
    refine keep (t := t) (pas hs ht (by rw [hh]; simp) (fun j hj => by rw [hh]; intro h; cases h; exact hj rfl) ?_
      (fun j hj => by rw [hh]; intro h; cases h; exact hj rfl))
    obtain ⟨h1, _⟩ := on_step hs ht
    rw [hh, roleOf_pass, roleOf_pass]
    exact pass_role rfl rfl h1 he ht (calm hs) (snap i t)
  | @entry t i k g us x enc hh hs he =>
    refine keep (t := t) (pas (t := t) hs rfl (by rw [hh]; simp) (fun j hj => by rw [hh]; intro h; cases h; exact hj rfl) ?_
      (fun j hj => by rw [hh]; intro h; cases h; exact hj rfl))
    obtain ⟨h1, _⟩ := on_step (t := t) hs rfl
    rw [hh, roleOf_pass, roleOf_pass]
    exact shown_role h1
  | @entryCrash t i k g us x o enc hh hs he ho =>
    exact absurd rfl (hne t)
  | @next t i acc x hh hs =>
    refine pas (t := t) hs rfl (by rw [hh]; simp) (fun j hj => by rw [hh]; intro h; cases h; exact hj rfl) ?_ (fun j hj => by cases i <;> simp [Vec.next])
    obtain ⟨h1, h2, _⟩ := on_step (t := t) hs rfl
    obtain ⟨r, k, hin⟩ := I.inside t (by rw [hh]; simp)
    rw [hh, roleOf_pass, next_role, collect_stays h2 hin, inside_role]
    exact end_role h1
  | @finish t out enc hh he => exact hand (I.inside t (by rw [hh]; simp)) (by rw [hh]; simp) (by simp)
  | @answer t out x hh hs => exact own (t := t) hs rfl (by simp) (by rw [hh]; simp)

theorem place_inv (h : Exec (EStep m c ryu le) (.new cap) tr s) (hne : ∀ t, .crash t ∉ tr) : PlaceInv s.base s.at' := by
  induction h with
  | nil => exact ⟨fun t h => absurd rfl h, fun t i => by cases i <;> exact ⟨rfl, rfl, rfl⟩⟩
  | snoc he hs ih =>
    exact place_step he (ih fun t hm => hne t (List.mem_append_left _ hm)) hs fun t h => hne t (by rw [h]; simp)

end

end Measured.Server
