import Verif.Props.SparseConc
import Verif.Props.DenseConc

/-!
# C67: series in successive scrapes of a vector

Threads create, update, remove and collect at the same time.
-/

namespace Measured
open Conc Spec

section sparse
variable {K U : Type} [DecidableEq K]

/-- A key that is present and not removed stays, with the same updates and later ones. -/
theorem mapOf_grows {c : ShardConf K} {a b : List (SEvent K U)} {s : SSys K U}
    (h : Exec (SStep c) SSys.new (a ++ b) s) {k : K} {us : List U} (hk : mapOf a k = some us)
    (hrm : ∀ v r, .remove v k (some r) ∉ b) : ∃ us', mapOf (a ++ b) k = some us' ∧ us <+: us' := by
  induction b using List.reverseRecOn generalizing s with
  | nil => exact ⟨us, by simpa using hk, List.prefix_refl _⟩
  | append_singleton b e ih =>
    rw [← List.append_assoc] at h ⊢
    obtain ⟨m, h1, _⟩ := exec_snoc_inv h
    obtain ⟨us', e1, e2⟩ := ih h1 fun v r hm => hrm v r (List.mem_append_left _ hm)
    have hok : EventOk (mapOf (a ++ b)) e := C23_linearizable (tr' := []) h
    rw [mapOf_snoc]
    cases e with
    | insert t k' =>
      have hok : mapOf (a ++ b) k' = none := hok
      have hne : k ≠ k' := by rintro rfl; rw [e1] at hok; cases hok
      exact ⟨us', by simp only [mapAfter]; rw [if_neg hne, e1], e2⟩
    | update t k' u =>
      by_cases hkk : k = k'
      · subst hkk
        refine ⟨us' ++ [u], by simp [mapAfter, e1], e2.trans (List.prefix_append _ _)⟩
      · exact ⟨us', by simp only [mapAfter]; rw [if_neg hkk, e1], e2⟩
    | remove t k' r =>
      have hok : r = mapOf (a ++ b) k' := hok
      by_cases hkk : k = k'
      · subst hkk
        rw [e1] at hok
        subst hok
        exact absurd (List.mem_append_right _ (List.mem_singleton.2 rfl)) (hrm t us')
      · exact ⟨us', by simp only [mapAfter]; rw [if_neg hkk, e1], e2⟩
    | _ => exact ⟨us', e1, e2⟩

/-- C67. Two passes over a sparse vector, by any threads, the second begun after the first was over. A key shown by the
first and not removed since the first began is shown by the second, once, with all the updates that the first
showed. -/
theorem C67_sparse {c : ShardConf K} (hc : ∀ k, c.shardOf k < c.n) {tr₁ a mid b tr₃ : List (SEvent K U)}
    {t t' : Tid} {acc acc' : List (K × List U)} {s : SSys K U}
    (h : Exec (SStep c) SSys.new
      (tr₁ ++ .startPass t :: a ++ .endPass t acc :: mid ++ .startPass t' :: b ++ .endPass t' acc' :: tr₃) s)
    (hone : .startPass t ∉ a) (hone' : .startPass t' ∉ b) {k : K} {us : List U} (hk : (k, us) ∈ emitted t a)
    (hrm : ∀ v r, .remove v k (some r) ∉ a ++ mid ++ b) :
    ((emitted t' b).filter fun e => e.1 = k).length = 1 ∧ ∀ us', (k, us') ∈ emitted t' b → us <+: us' := by
  have hA : tr₁ ++ SEvent.startPass t :: a ++ .endPass t acc :: mid ++ .startPass t' :: b ++ .endPass t' acc' :: tr₃
      = tr₁ ++ .startPass t :: a ++ .endPass t acc :: (mid ++ .startPass t' :: b ++ .endPass t' acc' :: tr₃) := by
    simp
  obtain ⟨_, pA, _⟩ := C24_pass hc (hA ▸ h) hone
  obtain ⟨p, ⟨q, rfl⟩, hp⟩ := pA k us hk
  obtain ⟨nB, pB, lB⟩ := C24_pass hc h hone'
  have grow : ∀ p', p' <+: b → ∃ us', mapOf
      (tr₁ ++ .startPass t :: (p ++ q) ++ .endPass t acc :: mid ++ .startPass t' :: p') k = some us' ∧
        us <+: us' := by
    rintro p' ⟨q', rfl⟩
    obtain ⟨s', h', _⟩ := exec_split
      (tr₁ ++ .startPass t :: (p ++ q) ++ .endPass t acc :: mid ++ .startPass t' :: p')
      (q' ++ .endPass t' acc' :: tr₃) (by simpa using h)
    have hre : tr₁ ++ SEvent.startPass t :: (p ++ q) ++ .endPass t acc :: mid ++ .startPass t' :: p'
        = (tr₁ ++ .startPass t :: p) ++ (q ++ .endPass t acc :: mid ++ .startPass t' :: p') := by simp
    rw [hre] at h' ⊢
    refine mapOf_grows h' hp fun v r hm => hrm v r ?_
    simp only [List.mem_append, List.mem_cons, reduceCtorEq, false_or] at hm ⊢
    tauto
  constructor
  · obtain ⟨us', hus⟩ := lB k fun p' hp' hn => by
      obtain ⟨us', e, _⟩ := grow p' hp'
      rw [hn] at e
      cases e
    have h1 : ((emitted t' b).filter fun e => e.1 = k).length = ((emitted t' b).map Prod.fst).count k := by
      rw [List.count_eq_countP, List.countP_map, List.countP_eq_length_filter]
      congr 2
    rw [h1]
    exact List.count_eq_one_of_mem nB (List.mem_map.2 ⟨_, hus, rfl⟩)
  · intro us' hus
    obtain ⟨p', hp', e⟩ := pB k us' hus
    obtain ⟨us'', e', hle⟩ := grow p' hp'
    rw [e'] at e
    cases e
    exact hle

end sparse

section dense
variable {U : Type}

/-- C67. A label of a dense vector that a thread has shown: a later pass of a thread that knows of it (the same one, or
one that has synchronised with it) does not leave the label out, and shows all the updates that were shown. -/
theorem C67_dense {n : Nat} {tr₁ tr₂ tr₃ : List (DEvent U)} {t t' : Tid} {i : Nat} {us : List U} {e : DEvent U}
    {s : DSys U} (h : Exec (DStep n) DSys.new (tr₁ ++ .emit t i us :: tr₂ ++ e :: tr₃) s)
    (hinf : Informed t t' tr₂) : e ≠ .skip t' i ∧ ∀ us', e = .emit t' i us' → us <+: us' := by
  obtain ⟨s₁, h1, h2⟩ := exec_split (tr₁ ++ .emit t i us :: tr₂) _ h
  obtain ⟨s₂, hs, _⟩ := exec_cons_inv h2
  obtain ⟨s₃, h3, h4⟩ := exec_split tr₁ _ h1
  obtain ⟨s₄, hs', h5⟩ := exec_cons_inv h4
  have hkn : s₄.Knows t i us.length := by
    cases hs' with
    | emit _ _ o _ _ _ _ _ _ => exact learn_knows _ _ _ _
  obtain ⟨k, hk, hle⟩ := knows_informed hkn hinf h5
  constructor
  · rintro rfl
    cases hs with
    | skip _ _ _ _ hk' => rw [hk] at hk'; cases hk'
  · rintro us' rfl
    have p1 : us <+: denseUpdates i tr₁ := by
      have : Exec (DStep n) DSys.new (tr₁ ++ .emit t i us :: []) s₄ := h3.snoc hs'
      exact (C47_emit this).1
    have p2 : us' <+: denseUpdates i (tr₁ ++ .emit t i us :: tr₂) := (C47_emit h).1
    have p3 : us <+: denseUpdates i (tr₁ ++ .emit t i us :: tr₂) := by
      rw [denseUpdates_append]
      exact p1.trans (List.prefix_append _ _)
    refine List.prefix_of_prefix_length_le p3 p2 ?_
    cases hs with
    | emit _ _ o _ _ _ _ _ hk' => exact hle.trans (hk' k hk)

end dense

/-- What a counter shows after increments. -/
def Spec.counterShows (us : List Nat) : Nat := us.foldl (fun v x => (v + x) % 2 ^ 64) 0

theorem counterShows_eq (us : List Nat) : counterShows us = us.sum % 2 ^ 64 := by
  have : ∀ v, us.foldl (fun v x => (v + x) % 2 ^ 64) (v % 2 ^ 64) = (v + us.sum) % 2 ^ 64 := by
    induction us with
    | nil => intro v; simp
    | cons x us ih =>
      intro v
      simp only [List.foldl_cons, List.sum_cons]
      rw [Nat.mod_add_mod, ih]
      congr 1
      omega
  exact (this 0).trans (by simp)

/-- C67. In particular the counters of a sparse vector never go back, as long as they do not overflow. -/
theorem C67_counters {K : Type} [DecidableEq K] {c : ShardConf K} (hc : ∀ k, c.shardOf k < c.n)
    {tr₁ a mid b tr₃ : List (SEvent K Nat)} {t t' : Tid} {acc acc' : List (K × List Nat)} {s : SSys K Nat}
    (h : Exec (SStep c) SSys.new
      (tr₁ ++ .startPass t :: a ++ .endPass t acc :: mid ++ .startPass t' :: b ++ .endPass t' acc' :: tr₃) s)
    (hone : .startPass t ∉ a) (hone' : .startPass t' ∉ b) {k : K} {us us' : List Nat}
    (hk : (k, us) ∈ emitted t a) (hk' : (k, us') ∈ emitted t' b)
    (hrm : ∀ v r, .remove v k (some r) ∉ a ++ mid ++ b) (hov : us'.sum < 2 ^ 64) :
    counterShows us ≤ counterShows us' := by
  obtain ⟨x, rfl⟩ := (C67_sparse hc h hone hone' hk hrm).2 us' hk'
  rw [List.sum_append] at hov
  rw [counterShows_eq, counterShows_eq, List.sum_append, Nat.mod_eq_of_lt (by omega), Nat.mod_eq_of_lt hov]
  omega

/-- C67. Nor do those of a dense vector. -/
theorem C67_counters_dense {n : Nat} {tr₁ tr₂ tr₃ : List (DEvent Nat)} {t t' : Tid} {i : Nat} {us us' : List Nat}
    {s : DSys Nat} (h : Exec (DStep n) DSys.new (tr₁ ++ .emit t i us :: tr₂ ++ .emit t' i us' :: tr₃) s)
    (hinf : Informed t t' tr₂) (hov : us'.sum < 2 ^ 64) : counterShows us ≤ counterShows us' := by
  obtain ⟨x, rfl⟩ := (C67_dense h hinf).2 us' rfl
  rw [List.sum_append] at hov
  rw [counterShows_eq, counterShows_eq, List.sum_append, Nat.mod_eq_of_lt (by omega), Nat.mod_eq_of_lt hov]
  omega

/-! ## Two scrapes of a sparse and of a dense vector -/

namespace SparseExample

def passA : List (SEvent Nat Nat) := [.lockR 1 0, .silent 1, .lockR 1 1, .emit 1 1 [5], .silent 1]

def passB : List (SEvent Nat Nat) := [.lockR 2 0, .silent 2, .lockR 2 1, .update 0 1 7, .emit 2 1 [5, 6], .silent 2]

/-- Thread 0 keeps the guard of metric 1; threads 1 and 2 collect one after the other. The update that takes effect
while thread 2 has the lock is not yet seen. -/
theorem run2 : ∃ s, Exec (SStep conf) SSys.new (tr₁ ++ .startPass 1 :: passA ++ .endPass 1 [(1, [5])] ::
    [.update 0 1 6] ++ .startPass 2 :: passB ++ .endPass 2 [(1, [5, 6])] :: []) s := by
  let s0 : SSys Nat Nat := SSys.new
  let s1 := s0.goto 0 (.getRead 1)
  let s2 := s1.goto 0 (.probe 1)
  let s3 := s2.goto 0 (.missed 1)
  let s4 := s3.goto 0 (.getWrite 1)
  let s5 := s4.goto 0 (.insert 1)
  let s6 := (s5.setShard 1 [(1, [])]).goto 0 (.inserted 1)
  let s7 := s6.goto 0 (.refind 1)
  let s8 := s7.setGuards 0 .idle [1]
  let s9 := s8.setShard 1 [(1, [5])]
  let a0 := s9.goto 1 (.collect 0 [])
  let a1 := a0.goto 1 (.scan 0 0 [] [])
  let a2 := a1.goto 1 (.collect 1 [])
  let a3 := a2.goto 1 (.scan 1 0 [] [(1, [5])])
  let a4 := a3.goto 1 (.scan 1 1 [(1, [5])] [(1, [5])])
  let a5 := a4.goto 1 (.collect 2 [(1, [5])])
  let a6 := a5.goto 1 .idle
  let a7 := a6.setShard 1 [(1, [5, 6])]
  let b0 := a7.goto 2 (.collect 0 [])
  let b1 := b0.goto 2 (.scan 0 0 [] [])
  let b2 := b1.goto 2 (.collect 1 [])
  let b3 := b2.goto 2 (.scan 1 0 [] [(1, [5, 6])])
  let b4 := b3.setShard 1 [(1, [5, 6, 7])]
  let b5 := b4.goto 2 (.scan 1 1 [(1, [5, 6])] [(1, [5, 6])])
  let b6 := b5.goto 2 (.collect 2 [(1, [5, 6])])
  have w0 : Two s0 := fun _ _ => rfl
  have w1 : Two s1 := w0.goto (by decide) _
  have w4 : Two s4 := ((w1.goto (by decide) _).goto (by decide) _).goto (by decide) _
  have w6 : Two s6 := ((w4.goto (by decide) _).setShard _ _).goto (by decide) _
  have w8 : Two s8 := (w6.goto (by decide) _).setGuards (by decide) _ _
  have v0 : Two a0 := (w8.setShard _ _).goto (by decide) _
  have v2 : Two a2 := (v0.goto (by decide) _).goto (by decide) _
  have v7 : Two a7 := ((((v2.goto (by decide) _).goto (by decide) _).goto (by decide) _).goto (by decide) _).setShard _ _
  have r : ∀ (s : SSys Nat Nat) i, (∀ u : Nat, 3 ≤ u → s.thr u = ⟨.idle, []⟩) →
      (s.thr 0).pc.writeLock conf ≠ some i → (s.thr 1).pc.writeLock conf ≠ some i →
      (s.thr 2).pc.writeLock conf ≠ some i → s.CanRead conf i := by
    intro s i h h0 h1 h2 (u : Nat) hu
    by_cases hu0 : u = 0
    · subst hu0; exact h0 hu
    by_cases hu1 : u = 1
    · subst hu1; exact h1 hu
    by_cases hu2 : u = 2
    · subst hu2; exact h2 hu
    have hu : (s.thr u).pc.writeLock conf = some i := hu
    rw [h u (by omega)] at hu
    cases hu
  have g : ∀ (s : SSys Nat Nat) p, (∀ u : Nat, 3 ≤ u → s.thr u = ⟨.idle, []⟩) →
      ∀ u : Nat, 3 ≤ u → (s.goto 2 p).thr u = ⟨.idle, []⟩ := by
    intro s p h u hu
    show Function.update s.thr 2 _ u = _
    rw [Function.update_of_ne (fun he : u = 2 => by omega)]
    exact h u hu
  have x0 := g a7 (.collect 0 []) fun u hu => v7 u (by omega)
  have x2 := g _ (.collect 1 []) (g _ (.scan 0 0 [] []) x0)
  refine ⟨b6.goto 2 .idle, ?_⟩
  refine exec_cons (m := s1) (.startGet s0 0 1 rfl) ?_
  refine exec_cons (m := s2) (.lockRead s1 0 1 rfl (w1.canRead (by decide) (by decide))) ?_
  refine exec_cons (m := s3) (.miss s2 0 1 rfl rfl) ?_
  refine exec_cons (m := s4) (.missRelease s3 0 1 rfl) ?_
  refine exec_cons (m := s5) (.lockWrite s4 0 1 rfl (w4.canWrite (by decide) (by decide) (by decide) (by decide)
    (by decide) (by decide))) ?_
  refine exec_cons (m := s6) (.insertNew s5 0 1 [(1, [])] rfl rfl (List.Perm.refl _)) ?_
  refine exec_cons (m := s7) (.downgrade s6 0 1 rfl) ?_
  refine exec_cons (m := s8) (.refind s7 0 1 [] rfl rfl) ?_
  refine exec_cons (m := s9) (.update s8 0 1 5 [] (by decide) rfl) ?_
  refine exec_cons (m := a0) (.startPass s9 1 rfl) ?_
  refine exec_cons (m := a1) (.passLock a0 1 0 [] rfl (by decide) (v0.canRead (by decide) (by decide))) ?_
  refine exec_cons (m := a2) (.passNext a1 1 0 0 [] [] rfl (by decide)) ?_
  refine exec_cons (m := a3) (.passLock a2 1 1 [] rfl (by decide) (v2.canRead (by decide) (by decide))) ?_
  refine exec_cons (m := a4) (.emit a3 1 1 0 [] [(1, [5])] 1 [5] [5] [5] rfl rfl rfl (by decide) (by decide)) ?_
  refine exec_cons (m := a5) (.passNext a4 1 1 1 _ _ rfl (by decide)) ?_
  refine exec_cons (m := a6) (.endPass a5 1 2 _ rfl (by decide)) ?_
  refine exec_cons (m := a7) (.update a6 0 1 6 [5] (by decide) rfl) ?_
  refine exec_cons (m := b0) (.startPass a7 2 rfl) ?_
  refine exec_cons (m := b1) (.passLock b0 2 0 [] rfl (by decide) (r _ _ x0 (by decide) (by decide) (by decide))) ?_
  refine exec_cons (m := b2) (.passNext b1 2 0 0 [] [] rfl (by decide)) ?_
  refine exec_cons (m := b3) (.passLock b2 2 1 [] rfl (by decide) (r _ _ x2 (by decide) (by decide) (by decide))) ?_
  refine exec_cons (m := b4) (.update b3 0 1 7 [5, 6] (by decide) rfl) ?_
  refine exec_cons (m := b5) (.emit b4 2 1 0 [] [(1, [5, 6])] 1 [5, 6] [5, 6] [5, 6, 7] rfl rfl rfl (by decide)
    (by decide)) ?_
  refine exec_cons (m := b6) (.passNext b5 2 1 1 _ _ rfl (by decide)) ?_
  exact Exec.snoc (tr := []) .nil (.endPass b6 2 2 _ rfl (by decide))

example : ((emitted 2 passB).filter fun e => e.1 = 1).length = 1 ∧ counterShows [5] ≤ counterShows [5, 6] := by
  obtain ⟨s, h⟩ := run2
  have hrm : ∀ v r, SEvent.remove v 1 (some r) ∉ passA ++ [.update 0 1 6] ++ passB := by
    intro v r; simp [passA, passB]
  have hc : ∀ k, conf.shardOf k < conf.n := fun k => Nat.mod_lt _ (by decide)
  exact ⟨(C67_sparse hc h (by simp [passA]) (by simp [passB]) (k := 1) (us := [5]) (by simp [passA, emitted]) hrm).1,
    C67_counters hc h (by simp [passA]) (by simp [passB]) (by simp [passA, emitted])
      (by simp [passB, emitted]) hrm (by decide)⟩

end SparseExample

namespace DenseExample

/-- After the run of C47, thread 2 has shown one update; thread 3 learns of it and shows both. -/
theorem run2 : ∃ s, Exec (DStep 2) DSys.new
    (tr ++ .emit 2 1 [7] :: [.endPass 2, .sync 3 2, .startPass 3, .skip 3 0] ++ .emit 3 1 [7, 8] :: []) s ∧
    Informed 2 3 [DEvent.endPass (U := Nat) 2, .sync 3 2, .startPass 3, .skip 3 0] := by
  obtain ⟨s, h, hc, ho, k0, k1, hp, k3⟩ := run
  let s1 : DSys Nat := { s with know := Function.update s.know 3 fun i => joinKnow (s.know 3 i) (s.know 2 i) }
  let s2 := s1.goto 3 (.pass 0)
  let s3 := s2.goto 3 (.pass 1)
  have e0 : s1.know 3 0 = none := by
    show Function.update s.know 3 _ 3 0 = none
    rw [Function.update_self]
    show joinKnow (s.know 3 0) (s.know 2 0) = none
    rw [k3, k0]; rfl
  have e1 : s1.know 3 1 = some 1 := by
    show Function.update s.know 3 _ 3 1 = some 1
    rw [Function.update_self]
    show joinKnow (s.know 3 1) (s.know 2 1) = some 1
    rw [k3, k1]; rfl
  have p1 : s2.pc 3 = .pass 0 := by simp [s2, DSys.goto]
  have p2 : s3.pc 3 = .pass 1 := by simp [s3, DSys.goto]
  refine ⟨(s3.goto 3 (.pass 2)).learn 3 1 2, ?_, ?_⟩
  · have h1 : Exec (DStep 2) DSys.new (tr ++ .emit 2 1 [7] :: [.endPass 2] ++ [.sync 3 2]) s1 := h.snoc (.sync s 3 2)
    have h2 : Exec (DStep 2) DSys.new _ s2 := h1.snoc (.startPass s1 3 hp)
    have h3 : Exec (DStep 2) DSys.new _ s3 := h2.snoc (.skip s2 3 0 p1 (by decide) e0)
    have h4 := h3.snoc (.emit s3 3 1 0 [7, 8] p2 (by decide) hc (by show _ <+: s.objs 0; rw [ho]) (by
      intro k hk
      change s1.know 3 1 = some k at hk
      rw [e1] at hk
      cases hk
      decide))
    simpa using h4
  · exact .keep (tr := [.endPass 2, .sync 3 2, .startPass 3]) (.keep (tr := [.endPass 2, .sync 3 2])
      (.sync (tr := [.endPass 2]) (.keep (tr := []) .start)))

example : [7] <+: [7, 8] := by
  obtain ⟨s, h, hi⟩ := run2
  exact (C67_dense h hi).2 _ rfl

example : counterShows [7] ≤ counterShows [7, 8] := by
  obtain ⟨s, h, hi⟩ := run2
  exact C67_counters_dense h hi (by decide)

end DenseExample

end Measured
