import Verif.Props.HistDense
import Verif.Props.VecLive

/-!
# Two passes over a vector of histograms, one after the other
-/

namespace Measured
open Conc Spec

section
variable {K : Type} [DecidableEq K]

theorem shows_emitted {le : List F64} {A : List (HVEvent K)} {PA : List (List (SEvent K HistCall))}
    (h : List.Forall₂ (HVShows le) A PA) {t : Tid} {k : K} {us : List HistCall} (hq : (k, us) ∈ emitted t PA.flatten) :
    ∃ x r y X Y, A = x ++ .emit t k r :: y ∧ PA = X ++ [.emit t k us] :: Y ∧ x.length = X.length := by
  induction h with
  | nil => cases hq
  | @cons e part A PA he _ ih =>
    have old : (k, us) ∈ emitted t PA.flatten → ∃ x r y X Y, e :: A = x ++ .emit t k r :: y ∧
        part :: PA = X ++ [.emit t k us] :: Y ∧ x.length = X.length := fun hq => by
      obtain ⟨x, r, y, X, Y, rfl, rfl, h3⟩ := ih hq
      exact ⟨e :: x, r, y, part :: X, Y, rfl, rfl, by simp [h3]⟩
    rw [List.flatten_cons, emitted_append] at hq
    replace hq := List.mem_append.1 hq
    rcases hq with hq | hq
    · cases he with
      | vec e e' h hu he =>
        cases e' <;> first | cases hq | exact absurd rfl (he _ _ _)
      | emit t' k' us' hh hu =>
        simp only [emitted] at hq
        split at hq
        · rename_i ht
          cases List.mem_singleton.1 hq
          exact ⟨[], _, A, [], PA, by rw [ht]; rfl, by rw [ht]; rfl, rfl⟩
        · cases hq
      | _ => cases hq
    · exact old hq

theorem shows_samples {le : List F64} {A : List (HVEvent K)} {PA : List (List (SEvent K HistCall))}
    (h : List.Forall₂ (HVShows le) A PA) (t : Tid) :
    ((emitted t PA.flatten).map fun q => (q.1, (histConc le (q.2.map HistCall.value)).sample)) = hvEmitted t A := by
  induction h with
  | nil => rfl
  | @cons e part A PA he _ ih =>
    rw [List.flatten_cons, emitted_append, List.map_append, ih]
    cases he with
    | vec e e' h hu he =>
      subst h
      cases e' <;> first | rfl | exact absurd rfl (he _ _ _)
    | emit t' k us hh hu =>
      simp only [emitted, hvEmitted]
      split
      · rw [histOf_conc hu]; rfl
      · rfl
    | _ => rfl

theorem shows_start {le : List F64} {A : List (HVEvent K)} {PA : List (List (SEvent K HistCall))}
    (h : List.Forall₂ (HVShows le) A PA) {t : Tid} (hone : .vec (.startPass t) ∉ A) : .startPass t ∉ PA.flatten := by
  intro hm
  obtain ⟨part, hp, hm⟩ := List.mem_flatten.1 hm
  obtain ⟨e, he, hs⟩ : ∃ e ∈ A, HVShows le e part := forall₂_mem h hp
  cases hs with
  | vec e e' h hu =>
    rw [List.mem_singleton] at hm
    subst hm h
    exact hone he
  | _ => simp at hm

theorem shows_removed {le : List F64} {A : List (HVEvent K)} {PA : List (List (SEvent K HistCall))}
    (h : List.Forall₂ (HVShows le) A PA) {k : K} (hrm : ∀ v x, .removed v k x ∉ A) (v : Tid) (r : List HistCall) :
    .remove v k (some r) ∉ PA.flatten := by
  intro hm
  obtain ⟨part, hp, hm⟩ := List.mem_flatten.1 hm
  obtain ⟨e, he, hs⟩ : ∃ e ∈ A, HVShows le e part := forall₂_mem h hp
  cases hs with
  | vec e e' h hu _ hr =>
    rw [List.mem_singleton] at hm
    exact hr _ _ _ hm.symm
  | removed t' k' us hh hu =>
    rw [List.mem_singleton] at hm
    cases hm
    exact hrm _ _ he
  | _ => simp at hm

/-- Two passes, the second begun when the first is over: the samples of the first are those of observations that were over
at some moment of it, and so for the second; and if a key has not been removed, it is in the second pass too, with all the
observations of the first, in the same order, and perhaps more after them. -/
theorem hv_twice {c : ShardConf K} (hc : ∀ k, c.shardOf k < c.n) {le : List F64} {tr₁ a mid b tr₃ : List (HVEvent K)}
    {t t' : Tid} {acc acc' : List (K × List Empty)} {s : HVSys K}
    (h : Exec (HVStep c le) (HVSys.new le.length) (tr₁ ++ .vec (.startPass t) :: a ++ .vec (.endPass t acc) :: mid ++
      .vec (.startPass t') :: b ++ .vec (.endPass t' acc') :: tr₃) s)
    (hone : .vec (.startPass t) ∉ a) (hone' : .vec (.startPass t') ∉ b) :
    ∃ l l' : List (K × List F64), (l.map fun q => (q.1, (histConc le q.2).sample)) = hvEmitted t a ∧
      (∀ q ∈ l, HVWas t tr₁ a q.1 q.2) ∧ (l'.map fun q => (q.1, (histConc le q.2).sample)) = hvEmitted t' b ∧
      (∀ q ∈ l', HVWas t' (tr₁ ++ .vec (.startPass t) :: a ++ .vec (.endPass t acc) :: mid) b q.1 q.2) ∧
      ∀ q ∈ l, (∀ v x, .removed v q.1 x ∉ a ++ mid ++ b) → ∃ ys, (q.1, ys) ∈ l' ∧ q.2 <+: ys := by
  obtain ⟨parts, w, g1, g2, g3⟩ := hv_all h
  obtain ⟨PX, PE, hX, hE, rfl⟩ := forall₂_split g1
  obtain ⟨PY, PD, hY, hD, rfl⟩ := forall₂_split hX
  obtain ⟨PZ, PC, hZ, hC, rfl⟩ := forall₂_split hY
  obtain ⟨P₁, PB, h1, hB, rfl⟩ := forall₂_split hZ
  cases hB with
  | @cons _ s1 _ A hs1 hA =>
  cases hC with
  | @cons _ e1 _ M he1 hM =>
  cases hD with
  | @cons _ s2 _ B hs2 hB =>
  cases hE with
  | @cons _ e2 _ P₃ he2 h3 =>
  have start : ∀ {t : Tid} {x : List (SEvent K HistCall)}, HVShows le (.vec (.startPass t)) x → x = [.startPass t] := by
    intro t x hx
    cases hx with
    | vec _ e' h hu => cases e' <;> cases h; rfl
  have fin : ∀ {t : Tid} {acc : List (K × List Empty)} {x : List (SEvent K HistCall)},
      HVShows le (.vec (.endPass t acc)) x → ∃ acc', x = [.endPass t acc'] := by
    intro t acc x hx
    cases hx with
    | vec _ e' h hu => cases e' <;> cases h; exact ⟨_, rfl⟩
  obtain rfl := start hs1
  obtain rfl := start hs2
  obtain ⟨acc1, rfl⟩ := fin he1
  obtain ⟨acc2, rfl⟩ := fin he2
  have hx : Exec (SStep c) SSys.new (P₁.flatten ++ .startPass t :: A.flatten ++ .endPass t acc1 :: M.flatten ++
      .startPass t' :: B.flatten ++ .endPass t' acc2 :: P₃.flatten) w := by
    simpa using g2.exec
  refine ⟨(emitted t A.flatten).map fun q => (q.1, q.2.map HistCall.value),
    (emitted t' B.flatten).map fun q => (q.1, q.2.map HistCall.value), ?_, ?_, ?_, ?_, ?_⟩
  · rw [List.map_map]; exact shows_samples hA t
  · rintro ⟨k, ys⟩ hq
    obtain ⟨⟨k', us⟩, hm, e⟩ := List.mem_map.1 hq
    cases e
    obtain ⟨x, r, y, X, Y, rfl, rfl, hl⟩ := shows_emitted hA hm
    obtain ⟨xs, z1, z2⟩ := g3 (tr₁ ++ .vec (.startPass t) :: x) t k' r
      (y ++ .vec (.endPass t acc) :: mid ++ .vec (.startPass t') :: b ++ .vec (.endPass t' acc') :: tr₃)
      (P₁ ++ [.startPass t] :: X) us
      (Y ++ [.endPass t acc1] :: M ++ [.startPass t'] :: B ++ [.endPass t' acc2] :: P₃)
      (by simp) (by simp) (by simp [hl, h1.length_eq])
    exact ⟨x, xs, List.prefix_append _ _, z1, z2⟩
  · rw [List.map_map]; exact shows_samples hB t'
  · rintro ⟨k, ys⟩ hq
    obtain ⟨⟨k', us⟩, hm, e⟩ := List.mem_map.1 hq
    cases e
    obtain ⟨x, r, y, X, Y, rfl, rfl, hl⟩ := shows_emitted hB hm
    obtain ⟨xs, z1, z2⟩ := g3
      (tr₁ ++ .vec (.startPass t) :: a ++ .vec (.endPass t acc) :: mid ++ .vec (.startPass t') :: x) t' k' r
      (y ++ .vec (.endPass t' acc') :: tr₃)
      (P₁ ++ [.startPass t] :: A ++ [.endPass t acc1] :: M ++ [.startPass t'] :: X) us
      (Y ++ [.endPass t' acc2] :: P₃)
      (by simp) (by simp) (by simp [hl, h1.length_eq, hA.length_eq, hM.length_eq])
    exact ⟨x, xs, List.prefix_append _ _, z1, z2⟩
  · rintro ⟨k, ys⟩ hq hrm
    obtain ⟨⟨k', us⟩, hm, e⟩ := List.mem_map.1 hq
    cases e
    obtain ⟨z1, z2⟩ := C67_sparse hc hx (shows_start hA hone) (shows_start hB hone') hm (by
      intro v r hr
      simp only [List.mem_append] at hr
      rcases hr with (hr | hr) | hr
      · exact shows_removed hA (fun v x hm => hrm v x (by simp [hm])) v r hr
      · exact shows_removed hM (fun v x hm => hrm v x (by simp [hm])) v r hr
      · exact shows_removed hB (fun v x hm => hrm v x (by simp [hm])) v r hr)
    obtain ⟨⟨z, us'⟩, hz'⟩ := List.exists_mem_of_length_pos (Nat.lt_of_lt_of_eq Nat.zero_lt_one z1.symm)
    obtain ⟨hz, e⟩ := List.mem_filter.1 hz'
    have e : z = k' := by simpa using e
    subst e
    exact ⟨_, List.mem_map.2 ⟨_, hz, rfl⟩, (z2 us' hz).map _⟩

end

theorem informed_left {U : Type} {s t : Tid} {tr : List (DEvent U)} (h : Informed s t tr) (x : List (DEvent U)) :
    Informed s t (x ++ tr) := by
  induction h with
  | start => rw [List.append_nil]; exact Informed.append (.start) x
  | keep _ ih => rw [← List.append_assoc]; exact .keep ih
  | sync _ ih => rw [← List.append_assoc]; exact .sync ih

/-- A label shown in one pass over a dense vector is shown in the next, by a thread that knows what the first knew. -/
theorem dense_again {U : Type} {n : Nat} {tr₁ a mid b tr₃ : List (DEvent U)} {t t' : Tid} {s : DSys U}
    (h : Exec (DStep n) DSys.new
      (tr₁ ++ .startPass t :: a ++ .endPass t :: mid ++ .startPass t' :: b ++ .endPass t' :: tr₃) s)
    (hone' : .startPass t' ∉ b) (hinf : Informed t t' mid) {i : Nat} {us : List U} (hq : (i, us) ∈ denseEmitted t a) :
    ∃ us', (i, us') ∈ denseEmitted t' b ∧ us <+: us' := by
  obtain ⟨a₁, a₂, rfl⟩ := List.append_of_mem (mem_denseEmitted hq)
  have split : ∀ b₁ e b₂, b = b₁ ++ e :: b₂ → e ≠ .skip t' i ∧ ∀ us', e = .emit t' i us' → us <+: us' := by
    rintro b₁ e b₂ rfl
    refine C67_dense (tr₁ := tr₁ ++ .startPass t :: a₁) (tr₂ := a₂ ++ .endPass t :: mid ++ .startPass t' :: b₁)
      (tr₃ := b₂ ++ .endPass t' :: tr₃) (s := s) (t := t) (n := n) (by simpa using h) ?_
    have := informed_left hinf (a₂ ++ [.endPass t])
    have := this.append (.startPass t' :: b₁)
    simpa using this
  have hlt : i < n := by
    obtain ⟨s₁, _, h1⟩ := exec_split (tr₁ ++ .startPass t :: a₁)
      (.emit t i us :: (a₂ ++ .endPass t :: mid ++ .startPass t' :: b ++ .endPass t' :: tr₃)) (by simpa using h)
    obtain ⟨s₂, hs, _⟩ := exec_cons_inv h1
    cases hs with
    | emit _ _ _ _ _ hi => exact hi
  have hmem : i ∈ (denseEmitted t' b).map Prod.fst := by
    obtain ⟨s₁, h1, h2⟩ := exec_split (tr₁ ++ .startPass t :: (a₁ ++ .emit t i us :: a₂) ++ .endPass t :: mid ++
      .startPass t' :: b) _ h
    obtain ⟨s₂, hs, _⟩ := exec_cons_inv h2
    cases hs with
    | endPass _ k hp hk =>
      refine ((dpass_inv h1 t' _ b rfl hone' k hp).all i (Nat.lt_of_lt_of_le hlt hk)).resolve_right fun hm => ?_
      obtain ⟨b₁, b₂, hb⟩ := List.append_of_mem hm
      exact (split b₁ _ b₂ hb).1 rfl
  obtain ⟨⟨j, us'⟩, hj, e⟩ := List.mem_map.1 hmem
  cases e
  obtain ⟨b₁, b₂, hb⟩ := List.append_of_mem (mem_denseEmitted hj)
  exact ⟨us', hj, (split b₁ _ b₂ hb).2 us' rfl⟩

theorem mem_hdVec_start {t : Tid} {l : List HDEvent} (hl : .startPass t ∈ hdVec l) : .vec (.startPass t) ∈ l := by
  induction l with
  | nil => cases hl
  | cons e l ih =>
    cases e with
    | vec e =>
      rcases List.mem_cons.1 hl with hl | hl
      · rw [← hl]; simp
      · simp [ih hl]
    | emit t' i r =>
      rcases List.mem_cons.1 hl with hl | hl
      · cases hl
      · simp [ih hl]
    | _ => simp [ih hl]

/-- The samples of a piece of a run, each with the observations in it. -/
theorem hd_values {n : Nat} {le : List F64} {pre A post : List HDEvent} {s : HDSys}
    (h : Exec (HDStep n le) (HDSys.new le.length) (pre ++ A ++ post) s) (t : Tid) :
    ∃ l : List (Nat × List F64), (l.map fun q => (q.1, (histConc le q.2).sample)) = hdEmitted t A ∧
      ∀ q ∈ l, ∃ p r y, A = p ++ .emit t q.1 r :: y ∧ q.2 = hdSummed q.1 (pre ++ p) ∧
        q.2.Perm (hdFinished q.1 (pre ++ p)) := by
  refine hv_values (was := fun i ys => ∃ p r y, A = p ++ .emit t i r :: y ∧ ys = hdSummed i (pre ++ p) ∧
    ys.Perm (hdFinished i (pre ++ p))) fun i r hm => ?_
  obtain ⟨p, q, rfl⟩ := hdEmitted_mem hm
  obtain ⟨hist, h1, h2, h3⟩ := hd_sample (tr := pre ++ p) (tr' := q ++ post) (by simpa using h)
  exact ⟨_, hist, ⟨p, r, q, rfl, rfl, h1⟩, h2, h3⟩

/-- As `hv_twice`, for dense vectors, where nothing is removed; the second thread knows what the first knew when it was
done. -/
theorem hd_twice {n : Nat} {le : List F64} {tr₁ a mid b tr₃ : List HDEvent} {t t' : Tid} {s : HDSys}
    (h : Exec (HDStep n le) (HDSys.new le.length) (tr₁ ++ .vec (.startPass t) :: a ++ .vec (.endPass t) :: mid ++
      .vec (.startPass t') :: b ++ .vec (.endPass t') :: tr₃) s)
    (hone' : .vec (.startPass t') ∉ b) (hinf : Informed t t' (hdVec mid)) :
    ∃ l l' : List (Nat × List F64), (l.map fun q => (q.1, (histConc le q.2).sample)) = hdEmitted t a ∧
      (∀ q ∈ l, HDWas t tr₁ a q.1 q.2) ∧ (l'.map fun q => (q.1, (histConc le q.2).sample)) = hdEmitted t' b ∧
      (∀ q ∈ l', HDWas t' (tr₁ ++ .vec (.startPass t) :: a ++ .vec (.endPass t) :: mid) b q.1 q.2) ∧
      ∀ q ∈ l, ∃ ys, (q.1, ys) ∈ l' ∧ q.2 <+: ys := by
  obtain ⟨l, l1, l2⟩ := hd_values (pre := tr₁ ++ [.vec (.startPass t)]) (A := a)
    (post := .vec (.endPass t) :: mid ++ .vec (.startPass t') :: b ++ .vec (.endPass t') :: tr₃) (by simpa using h) t
  obtain ⟨l', l1', l2'⟩ := hd_values
    (pre := tr₁ ++ .vec (.startPass t) :: a ++ .vec (.endPass t) :: mid ++ [.vec (.startPass t')]) (A := b)
    (post := .vec (.endPass t') :: tr₃) (by simpa using h) t'
  refine ⟨l, l', l1, ?_, l1', ?_, ?_⟩
  · intro q hq
    obtain ⟨p, r, y, rfl, _, h3⟩ := l2 q hq
    exact ⟨p, List.prefix_append _ _, by simpa using h3⟩
  · intro q hq
    obtain ⟨p, r, y, rfl, _, h3⟩ := l2' q hq
    exact ⟨p, List.prefix_append _ _, by simpa using h3⟩
  · rintro ⟨i, xs⟩ hq
    have hx := (hd_inv h).exec
    simp only [hdVec_append, hdVec] at hx
    obtain ⟨s₁, _, e1⟩ := exec_split (tr₁ ++ [.vec (.startPass t)])
      (a ++ (.vec (.endPass t) :: mid ++ .vec (.startPass t') :: b ++ .vec (.endPass t') :: tr₃)) (by simpa using h)
    obtain ⟨s₂, e2, _⟩ := exec_split a _ e1
    obtain ⟨s₃, _, e3⟩ := exec_split (tr₁ ++ .vec (.startPass t) :: a ++ .vec (.endPass t) :: mid ++ [.vec (.startPass t')])
      (b ++ .vec (.endPass t') :: tr₃) (by simpa using h)
    obtain ⟨s₄, e4, _⟩ := exec_split b _ e3
    have k1 : i ∈ (denseEmitted t (hdVec a)).map Prod.fst := by
      rw [hd_keys e2 t, ← l1, List.map_map]
      exact List.mem_map.2 ⟨_, hq, rfl⟩
    obtain ⟨⟨i', us⟩, hm, e⟩ := List.mem_map.1 k1
    replace e : i' = i := e
    subst e
    obtain ⟨us', hm', _⟩ := dense_again hx (fun hm => hone' (mem_hdVec_start hm)) hinf hm
    have k2 : i' ∈ (hdEmitted t' b).map Prod.fst := by
      rw [← hd_keys e4 t']
      exact List.mem_map.2 ⟨_, hm', rfl⟩
    rw [← l1', List.map_map] at k2
    obtain ⟨⟨j, ys⟩, hy, e⟩ := List.mem_map.1 k2
    replace e : j = i' := e
    subst e
    refine ⟨ys, hy, ?_⟩
    obtain ⟨p, r, y, rfl, v1, _⟩ := l2 _ hq
    obtain ⟨p', r', y', rfl, v2, _⟩ := l2' _ hy
    simp only at v1 v2 ⊢
    rw [v1, v2]
    have : tr₁ ++ [.vec (.startPass t)] ++ p <+:
        tr₁ ++ .vec (.startPass t) :: (p ++ .emit t j r :: y) ++ .vec (.endPass t) :: mid ++ [.vec (.startPass t')] ++ p' :=
      ⟨.emit t j r :: y ++ .vec (.endPass t) :: mid ++ [.vec (.startPass t')] ++ p', by simp⟩
    obtain ⟨z, hz⟩ := this
    exact ⟨hdSummed j z, by rw [← hdSummed_append, hz]⟩

end Measured
