import Verif.Proof.ExportWork

/-! # Proofs about the example server: requests come to their end -/

namespace Measured.Server
open Measured.Conc Measured.Spec

section
variable {m : Mode} {c : Vec → ShardConf Key} {ryu : F64 → Bytes} {le : List F64} {cap : Nat} {tr : List EEvent} {s s' : ESys}

theorem labels_role {i : Vec} {p : Pc} {g g' : i.groups.Group} (h : p.role i = .encode g) (h' : p.labels i = some g') : g' = g := by
  cases i <;> cases p <;> first | (cases h; cases h'; rfl) | cases h | cases h'

theorem on_views {s s' : Sys} {t : Tid} {i : Vec} {e : LVEvent Lab i.Call i.groups.n} (hs : Step m c s (.on i e) s')
    (ht : (Event.on i e).Of t) {u : Tid} (hu : u ≠ t) (j : Vec) : (s'.vecs.own j).pc u = (s.vecs.own j).pc u ∧
      (s'.vecs.own j).vec.thr u = (s.vecs.own j).vec.thr u ∧ (s'.vecs.own j).seen u = (s.vecs.own j).seen u := by
  obtain ⟨h1, _, _, h4, _⟩ := on_step hs ht
  by_cases hj : j = i
  · subst hj; exact lv_others h1 ht hu
  · rw [h4 j hj]; exact ⟨rfl, rfl, rfl⟩

theorem taskWork_same {R : Nat} {s s' : ESys} {u : Tid} (h1 : s'.base.pc u = s.base.pc u) (h2 : s'.at' u = s.at' u)
    (h3 : ∀ j, (s'.base.vecs.own j).pc u = (s.base.vecs.own j).pc u ∧
      (s'.base.vecs.own j).vec.thr u = (s.base.vecs.own j).vec.thr u ∧ (s'.base.vecs.own j).seen u = (s.base.vecs.own j).seen u) :
    taskWork c R s' u = taskWork c R s u := by
  unfold taskWork vecWork
  simp only [h1, h2, h3]

/-- What a step does to the work: one request has less to do, the others as much as before. -/
structure Less (c : Vec → ShardConf Key) (T : List Tid) (s s' : ESys) (t : Tid) : Prop where
  here : t ∈ T
  less : taskWork c T.length s' t < taskWork c T.length s t
  same : ∀ u, u ≠ t → taskWork c T.length s' u = taskWork c T.length s u
  all : ∀ u, s'.base.pc u ≠ .new → u ∈ T

theorem work_step (h : Exec (EStep m c ryu le) (.new cap) tr s) (I : PlaceInv s.base s.at') {T : List Tid}
    (hT : ∀ t, s.base.pc t ≠ .new → t ∈ T) {e : EEvent} (hs : EStep m c ryu le s e s') (hg : Goes s e) :
    ∃ t, Less c T s s' t := by
  have hb := exec_base h
  have calm : ∀ {i : Vec} {e : LVEvent Lab i.Call i.groups.n} {x : Sys} {t : Tid}, Step m c s.base (.on i e) x →
      e ≠ .lab (.panic t) ∧ e ≠ .vec (.panic t) := by
    intro i e x t hs
    have := C80_no_panic (hb.snoc hs) i t
    constructor
    · rintro rfl; exact this.1 (by simp)
    · rintro rfl; exact this.2 (by simp)
  have here : ∀ {t}, s.at' t ≠ .out → t ∈ T := fun {t} ho => by
    obtain ⟨r, k, hp⟩ := I.inside t ho
    exact hT t (by rw [hp]; simp)
  -- only the place in the handler changes
  have hand : ∀ {t : Tid} {q : Hpc} {l : Option Tid} {enc : TextEnc Bytes}, s.at' t ≠ .out →
      (∀ r k, rank (.inside r k) q < rank (.inside r k) (s.at' t)) →
      Less c T s ⟨s.base, Function.update s.at' t q, l, enc⟩ t := by
    intro t q l enc ho hq
    obtain ⟨r, k, hp⟩ := I.inside t ho
    refine ⟨here ho, work_rank c _ ?_, fun u hu => taskWork_same rfl (Function.update_of_ne hu _ _) fun _ => ⟨rfl, rfl, rfl⟩, hT⟩
    show rank (s.base.pc t) (Function.update s.at' t q t) < _
    rw [Function.update_self, hp]
    exact hq r k
  -- the same with a step on a vector
  have vecs : ∀ {t : Tid} {i : Vec} {e : LVEvent Lab i.Call i.groups.n} {x : Sys} {q : Hpc} {l : Option Tid} {enc : TextEnc Bytes},
      Step m c s.base (.on i e) x → (Event.on i e).Of t → s.at' t ≠ .out →
      (∀ r k, rank (.inside r k) q < rank (.inside r k) (s.at' t)) →
      Less c T s ⟨x, Function.update s.at' t q, l, enc⟩ t := by
    intro t i e x q l enc hs ht ho hq
    obtain ⟨r, k, hp⟩ := I.inside t ho
    obtain ⟨h1, h2, h3, h4, h5⟩ := on_step hs ht
    refine ⟨here ho, work_rank c _ ?_, fun u hu => taskWork_same (h3 u hu) (Function.update_of_ne hu _ _) (on_views hs ht hu),
      fun u hu => ?_⟩
    · show rank (x.pc t) (Function.update s.at' t q t) < _
      rw [Function.update_self, collect_stays h2 hp, hp]
      exact hq r k
    · by_cases hut : u = t
      · subst hut; exact here ho
      · have hu : x.pc u ≠ .new := hu
        rw [h3 u hut] at hu; exact hT u hu
  -- a step of a pass
  have pas : ∀ {t : Tid} {i : Vec} {e : LVEvent Lab i.Call i.groups.n} {x : Sys} {l : Option Tid} {enc : TextEnc Bytes},
      Step m c s.base (.on i e) x → (Event.on i e).Of t → s.at' t = .pass i →
      (∀ y : ESys, y.base = x → y.at' = s.at' → vecWork c T.length y t i < vecWork c T.length s t i) →
      Less c T s ⟨x, s.at', l, enc⟩ t := by
    intro t i e x l enc hs ht ho hw
    have ho' : s.at' t ≠ .out := by rw [ho]; simp
    obtain ⟨r, k, hp⟩ := I.inside t ho'
    obtain ⟨h1, h2, h3, h4, h5⟩ := on_step hs ht
    have hp' := collect_stays h2 hp
    refine ⟨here ho', work_vec c _ ?_ i (hw _ rfl rfl) fun j hj => ?_,
      fun u hu => taskWork_same (h3 u hu) rfl (on_views hs ht hu), fun u hu => ?_⟩
    · show rank (x.pc t) _ = _
      rw [hp', hp]
    · show roleWork _ _ ((x.vecs.own j).pc t) ((x.vecs.own j).vec.thr t) ((x.vecs.own j).seen t) (roleOf j (x.pc t) (s.at' t)) = _
      rw [h4 j hj, hp', ← hp]; rfl
    · by_cases hut : u = t
      · subst hut; exact here ho'
      · have hu : x.pc u ≠ .new := hu
        rw [h3 u hut] at hu; exact hT u hu
  -- an own step of the middleware
  have own : ∀ {t : Tid} {e : Event} {x : Sys} {q : Hpc}, Step m c s.base e x → e.Of t → (∀ i f, e ≠ .on i f) →
      (s.base.pc t ≠ .new) → (rank (x.pc t) q < rank (s.base.pc t) (s.at' t)) →
      Less c T s { s with base := x, at' := Function.update s.at' t q } t := by
    intro t e x q hs ht he hp hr
    obtain ⟨h1, h2, h3⟩ := own_step hs he ht
    refine ⟨hT t hp, work_rank c _ ?_, fun u hu => taskWork_same (h3 u hu) (Function.update_of_ne hu _ _) fun j => ?_,
      fun u hu => ?_⟩
    · show rank (x.pc t) (Function.update s.at' t q t) < _
      rw [Function.update_self]; exact hr
    · show (x.vecs.own j).pc u = _ ∧ (x.vecs.own j).vec.thr u = _ ∧ (x.vecs.own j).seen u = _
      rw [h2]; exact ⟨rfl, rfl, rfl⟩
    · by_cases hut : u = t
      · subst hut; exact hT u hp
      · have hu : x.pc u ≠ .new := hu
        rw [h3 u hut] at hu; exact hT u hu
  have small : ∀ i sh, ((s.base.vecs.at i).vec.shards sh).length ≤ T.length := fun i sh => shard_few hb hT i sh
  cases hs with
  | @run t e x hout hs ht he =>
    by_cases hv : ∀ i f, e ≠ .on i f
    · obtain ⟨h1, h2, h3⟩ := own_step hs hv ht
      have hp : s.base.pc t ≠ .new := by
        intro hp
        rw [hp] at h1
        generalize x.pc t = p' at h1
        cases h1
        exact hg
      have := own (q := s.at' t) hs ht hv hp (by
        rw [hout]
        generalize s.base.pc t = p at h1 hp
        generalize x.pc t = p' at h1
        cases h1 with
        | begin => exact absurd rfl hp
        | enter => exact Nat.lt_succ_self _
        | answer =>
          have ho : s.at' _ ≠ .out := hg
          cases ht
          exact absurd hout ho
        | abandon => exact hg.elim
        | finish => exact Nat.succ_pos _
        | _ => exact absurd rfl (hv _ _))
      rw [Function.update_eq_self] at this
      exact ⟨t, this⟩
    · push Not at hv
      obtain ⟨i, f, rfl⟩ := hv
      obtain ⟨h1, h2, h3, h4, h5⟩ := on_step hs ht
      have hni : ∀ r k, s.base.pc t ≠ .inside r k := by
        intro r k hp
        cases f with
        | lab g =>
          cases g with
          | tau u =>
            obtain ⟨g, _, _, _, hg, _⟩ := he
            rw [hp] at hg
            cases i <;> cases hg
          | _ => exact he r k hp
        | _ => exact he r k hp
      have hp : s.base.pc t ≠ .new := by
        intro hp
        rw [hp] at h2
        generalize x.pc t = p' at h2
        cases h2
      refine ⟨t, hT t hp, ?_, fun u hu => taskWork_same (h3 u hu) rfl (on_views hs ht hu), fun u hu => ?_⟩
      · rcases moves_rank h2 hni (s.at' t) with hr | ⟨hr, hw⟩
        · exact work_rank c _ hr
        · have hI := I.ok t i
          unfold PlaceOk at hI
          rw [hout] at hI
          change RoleOk _ _ _ ((s.base.pc t).role i) at hI
          have hrest := rest_short hb i t
          refine work_vec c _ (by show rank (x.pc t) _ = _; rw [hr]) i ?_ fun j hj => ?_
          · show roleWork _ _ ((x.vecs.own i).pc t) ((x.vecs.own i).vec.thr t) ((x.vecs.own i).seen t) (roleOf i (x.pc t) (s.at' t)) <
              roleWork _ _ _ _ _ (roleOf i (s.base.pc t) (s.at' t))
            rw [hr, hout]
            show roleWork _ _ _ _ _ ((s.base.pc t).role i) < roleWork _ _ _ _ _ ((s.base.pc t).role i)
            rcases hw with ⟨g, hgr, hen⟩ | ⟨k, hk, hen⟩
            · rw [hgr] at hI ⊢
              refine encode_less h1 hen (calm hs).1 (g := g) ?_ (fun g index ks rest hl => ?_) fun u env rest ks hl => ?_
              · cases hen with
                | panic => exact absurd rfl (calm (t := t) hs).1
                | tau =>
                  obtain ⟨g', index, ks, rest, e1, e2, e3⟩ := he
                  obtain rfl := labels_role hgr e1
                  exact ⟨index, ks, rest, e2, e3⟩
              · have hl : (s.base.vecs.own i).pc t = _ := hl
                rw [hl] at hrest; exact hrest
              · have hl : (s.base.vecs.own i).pc t = _ := hl
                have := hI.1
                rw [hl] at this
                rcases this with this | ⟨_, _, _, this⟩ <;> cases this
            · rw [hk] at hI ⊢
              exact get_less h1 hen (calm hs).2 hI.2.1.1
          · show roleWork _ _ ((x.vecs.own j).pc t) ((x.vecs.own j).vec.thr t) ((x.vecs.own j).seen t) (roleOf j (x.pc t) (s.at' t)) = _
            rw [h4 j hj, hr]; rfl
      · by_cases hut : u = t
        · subst hut; exact hT u hp
        · have hu : x.pc u ≠ .new := hu
          rw [h3 u hut] at hu; exact hT u hu
  | call => exact hg.elim
  | @lock t hw hl => exact ⟨t, hand (by rw [hw]; simp) (by rw [hw]; intros; exact Nat.lt_succ_self _)⟩
  | giveUp => exact hg.elim
  | @head t i x enc hh hs he =>
    exact ⟨t, vecs hs rfl (by rw [hh]; simp) (by rw [hh]; intros; cases i <;> exact Nat.lt_succ_self _)⟩
  | @headCrash t i o enc hh he ho =>
    exact ⟨t, hand (by rw [hh]; simp) (by rw [hh]; intros; cases i <;> simp only [rank] <;> decide)⟩
  | @pass t i e x hh hs ht he =>
    refine ⟨t, pas hs ht hh fun y hy ha => ?_⟩
    obtain ⟨h1, _⟩ := on_step hs ht
    have hI := I.ok t i
    rw [hh, roleOf_pass] at hI
    have hrest := rest_short hb i t
    unfold vecWork
    rw [hy, ha, hh, roleOf_pass, roleOf_pass]
    refine pass_less rfl rfl h1 he ht (calm hs) (fun sh j acc snap hp => snap_inv (to_map hb i) t sh j acc snap hp) (small i)
      (fun u env rest ks hl => ?_) hI.1
    have hl : (s.base.vecs.own i).pc t = _ := hl
    rw [hl] at hrest; exact hrest
  | @entry t i k g us x enc hh hs he =>
    refine ⟨t, pas hs rfl hh fun y hy ha => ?_⟩
    obtain ⟨h1, _⟩ := on_step (t := t) hs rfl
    have hI := I.ok t i
    rw [hh, roleOf_pass] at hI
    unfold vecWork
    rw [hy, ha, hh, roleOf_pass, roleOf_pass]
    exact shown_less h1 (small i) hI.1
  | @entryCrash t i k g us x o enc hh hs he ho =>
    exact ⟨t, hand (by rw [hh]; simp) (by rw [hh]; intros; cases i <;> simp only [rank] <;> decide)⟩
  | @next t i acc x hh hs =>
    exact ⟨t, vecs hs rfl (by rw [hh]; simp) (by rw [hh]; intros; cases i <;> exact Nat.lt_succ_self _)⟩
  | @finish t out enc hh he => exact ⟨t, hand (by rw [hh]; simp) (by rw [hh]; intros; exact Nat.lt_succ_self _)⟩
  | @answer t out x hh hs =>
    obtain ⟨r, k, hp⟩ := I.inside t (by rw [hh]; simp)
    refine ⟨t, own hs rfl (by simp) (by rw [hp]; simp) ?_⟩
    obtain ⟨h1, _⟩ := own_step (t := t) hs (by simp) rfl
    rw [hp] at h1 ⊢
    rw [hh]
    generalize x.pc t = p' at h1
    cases h1
    simp only [rank]; decide

end

end Measured.Server
