import Verif.Proof.HistVec
import Verif.Props.ConcScrape
import Verif.Spec.HistVecLive

/-!
# C84: vectors of histograms, with both levels of locks
-/

namespace Measured
open Conc Spec

variable {K : Type} [DecidableEq K]

/-- C84. Whatever threads do on a vector of histograms, step by step, amounts to a run on a vector whose observations are
single steps: the same steps on the map in the same order, one update per observation, at the moment when it is added to
the sum and so between its beginning and its end; and every sample written and every histogram removed is what a single
thread gets that makes the updates of that run. So what is said of such runs (C23, C24, C67, C68, C75) holds here. -/
theorem C84_linear {c : ShardConf K} {le : List F64} {tr : List (HVEvent K)} {s : HVSys K}
    (h : Exec (HVStep c le) (HVSys.new le.length) tr s) :
    ∃ parts a, List.Forall₂ (HVShows le) tr parts ∧ Exec (SStep c) SSys.new parts.flatten a := by
  obtain ⟨parts, a, h1, h2⟩ := hv_inv h
  exact ⟨parts, a, h1, h2.exec⟩

theorem hv_prefix {c : ShardConf K} {le : List F64} {tr tr' : List (HVEvent K)} {e : HVEvent K} {s : HVSys K}
    (h : Exec (HVStep c le) (HVSys.new le.length) (tr ++ e :: tr') s) :
    ∃ parts a s₁ s₂, List.Forall₂ (HVShows le) tr parts ∧ HVInv c le tr parts.flatten a s₁ ∧ HVStep c le s₁ e s₂ := by
  obtain ⟨s₁, h1, h2⟩ := exec_split tr _ h
  obtain ⟨s₂, hs, _⟩ := exec_cons_inv h2
  obtain ⟨parts, a, h3, h4⟩ := hv_inv h1
  exact ⟨parts, a, s₁, s₂, h3, h4, hs⟩

/-- A sample written is that of exactly the observations on the key that are over: none is missing, none half recorded,
none counted twice, although observers may be at work and guards kept. -/
theorem C84_sample {c : ShardConf K} {le : List F64} {tr tr' : List (HVEvent K)} {t : Tid} {k : K}
    {r : List Nat × Nat × F64} {s : HVSys K}
    (h : Exec (HVStep c le) (HVSys.new le.length) (tr ++ .emit t k r :: tr') s) :
    ∃ xs ys hist, finishedOf tr k = some xs ∧ ys.Perm xs ∧ HistOf le ys hist ∧ hist.sample = r := by
  obtain ⟨parts, a, s₁, s₂, _, hi, hs⟩ := hv_prefix h
  cases hs with
  | emit _ _ _ hh v hv hv' =>
    have hI := s_inv hi.exec
    rw [← hi.vec] at hv'
    obtain ⟨e', a', h1, h2, h3, h4⟩ := erase_step hI (fun t i j acc snap => snap_inv hi.exec t i j acc snap) hv'
    cases e' with
    | emit t' k' us =>
      cases h3
      have h4 : findKey k (a.shards (c.shardOf k)) = some us := h4
      rw [hI.abs] at h4
      obtain ⟨htr, x1, x2, x3⟩ := hi.hist k us h4
      obtain ⟨st, z1, z2, z3⟩ := sample_is (tr' := []) (x1.snoc hv)
      exact ⟨_, _, st, x3, by rw [← completed_eq]; exact z1, z2, z3⟩
    | _ => cases h3

/-- `remove_metric` returns the histogram of exactly the observations on the key that are over, and there are no others. -/
theorem C84_removed {c : ShardConf K} {le : List F64} {tr tr' : List (HVEvent K)} {t : Tid} {k : K} {hist : HistInner}
    {s : HVSys K} (h : Exec (HVStep c le) (HVSys.new le.length) (tr ++ .removed t k hist :: tr') s) :
    ∃ xs ys, finishedOf tr k = some xs ∧ ys.Perm xs ∧ HistOf le ys hist := by
  obtain ⟨parts, a, s₁, s₂, _, hi, hs⟩ := hv_prefix h
  cases hs with
  | remove _ _ v hv hq =>
    have hI := s_inv hi.exec
    rw [← hi.vec] at hv
    obtain ⟨e', a', h1, h2, h3, h4⟩ := erase_step hI (fun t i j acc snap => snap_inv hi.exec t i j acc snap) hv
    cases e' with
    | remove t' k' r =>
      cases r with
      | none => cases h3
      | some us =>
        cases h3
        have hw : (a.thr t).HoldsW c (c.shardOf k) := by
          cases h1 with
          | removeSome _ _ _ l hp => show (a.thr t).pc.writeLock c = _; rw [hp]; rfl
        have h4 : findKey k (a.shards (c.shardOf k)) = some us := h4
        rw [hI.abs] at h4
        obtain ⟨htr, x1, x2, x3⟩ := hi.hist k us h4
        obtain ⟨z1, z2⟩ := hist_quiet x1 (hi.alone hw)
        exact ⟨_, _, x3, z2, z1⟩
    | _ => cases h3

/-- Nothing panics: no index is out of bounds, no guard dangles, no `expect` fails. -/
theorem C84_no_panic {c : ShardConf K} {le : List F64} {tr : List (HVEvent K)} {s : HVSys K}
    (h : Exec (HVStep c le) (HVSys.new le.length) tr s) :
    (∀ t, .vec (.panic t) ∉ tr) ∧ ∀ t k u, .observe t k (.panic u) ∉ tr := by
  constructor
  · intro t hm
    obtain ⟨x, y, rfl⟩ := List.append_of_mem hm
    obtain ⟨parts, a, s₁, s₂, _, hi, hs⟩ := hv_prefix h
    cases hs with
    | vec _ v hv he hq =>
      have hI := s_inv hi.exec
      rw [← hi.vec] at hv
      obtain ⟨e', a', h1, h2, h3, h4⟩ := erase_step hI (fun t i j acc snap => snap_inv hi.exec t i j acc snap) hv
      have hok := (sstep_inv hI h1).2
      cases e' <;> cases h3
      exact hok
  · intro t k u hm
    obtain ⟨x, y, rfl⟩ := List.append_of_mem hm
    obtain ⟨parts, a, s₁, s₂, _, hi, hs⟩ := hv_prefix h
    cases hs with
    | observe _ _ _ hh hv ht hp hg hq h0 h1 =>
      have hI := s_inv hi.exec
      have hg' : k ∈ (a.thr t).guards := by rw [← hi.vec] at hg; exact hg
      obtain ⟨us, hus⟩ := Option.ne_none_iff_exists'.1 ((hI.ok t).guards k hg')
      rw [hI.abs] at hus
      obtain ⟨htr, x1, _, _⟩ := hi.hist k us hus
      exact (histStep_inv (hist_inv x1).1 hv).2 u rfl

/-! ## A pass -/

theorem shows_keys {le : List F64} {tr : List (HVEvent K)} {parts : List (List (SEvent K HistCall))}
    (h : List.Forall₂ (HVShows le) tr parts) (t : Tid) :
    (emitted t parts.flatten).map Prod.fst = (hvEmitted t tr).map Prod.fst := by
  induction h with
  | nil => rfl
  | @cons e part tr parts he _ ih =>
    rw [List.flatten_cons, emitted_append, List.map_append, ih]
    cases he with
    | vec e e' h hu he =>
      subst h
      cases e' <;> first | rfl | exact absurd rfl (he _ _ _)
    | emit t' k us hh hu =>
      simp only [emitted, hvEmitted]
      split <;> rfl
    | _ => rfl

/-- At every moment the keys of the vector are among those of the map that it stands for. -/
theorem hv_keys {c : ShardConf K} {le : List F64} {tr : List (HVEvent K)} {s : HVSys K}
    (h : Exec (HVStep c le) (HVSys.new le.length) tr s) :
    ∃ parts a, List.Forall₂ (HVShows le) tr parts ∧ HVInv c le tr parts.flatten a s ∧
      ∀ p P, p <+: tr → P <+: parts → p.length = P.length → ∀ k, mapOf P.flatten k = none → finishedOf p k = none := by
  induction h with
  | nil =>
    obtain ⟨parts, a, h1, h2⟩ := hv_inv (c := c) (le := le) .nil
    refine ⟨parts, a, h1, h2, fun p P hp hP hl k _ => ?_⟩
    rw [List.prefix_nil.1 hp]
    rfl
  | @snoc tr s e s' _ hs ih =>
    obtain ⟨parts, a, h1, h2, h3⟩ := ih
    obtain ⟨part, a', g1, g2⟩ := hv_step h2 hs
    have hlen := h1.length_eq
    have g2' : HVInv c le (tr ++ [e]) (parts ++ [part]).flatten a' s' := by
      rw [List.flatten_append, List.flatten_singleton]; exact g2
    refine ⟨parts ++ [part], a', List.rel_append h1 (.cons g1 .nil), g2', fun p P hp hP hl k hk => ?_⟩
    rcases List.prefix_concat_iff.1 hp with rfl | hp
    · rcases List.prefix_concat_iff.1 hP with rfl | hP
      · exact g2'.gone k hk
      · have := hP.length_le
        simp only [List.length_append, List.length_singleton] at hl; omega
    · rcases List.prefix_concat_iff.1 hP with rfl | hP
      · have := hp.length_le
        simp only [List.length_append, List.length_singleton] at hl; omega
      · exact h3 p P hp hP hl k hk

theorem forall₂_split {α β : Type} {R : α → β → Prop} {l₁ l₂ : List α} {m : List β} (h : List.Forall₂ R (l₁ ++ l₂) m) :
    ∃ m₁ m₂, List.Forall₂ R l₁ m₁ ∧ List.Forall₂ R l₂ m₂ ∧ m = m₁ ++ m₂ := by
  induction l₁ generalizing m with
  | nil => exact ⟨[], m, .nil, h, rfl⟩
  | cons x l₁ ih =>
    cases h with
    | @cons _ y _ m hxy h =>
      obtain ⟨m₁, m₂, h1, h2, rfl⟩ := ih h
      exact ⟨y :: m₁, m₂, .cons hxy h1, h2, rfl⟩

theorem forall₂_mem {α β : Type} {R : α → β → Prop} {l : List α} {m : List β} (h : List.Forall₂ R l m) {y : β}
    (hy : y ∈ m) : ∃ x ∈ l, R x y := by
  induction h with
  | nil => cases hy
  | cons hxy _ ih =>
    rcases List.mem_cons.1 hy with rfl | hy
    · exact ⟨_, by simp, hxy⟩
    · obtain ⟨x, hx, hr⟩ := ih hy
      exact ⟨x, by simp [hx], hr⟩

theorem shows_prefix {le : List F64} {tr : List (HVEvent K)} {parts : List (List (SEvent K HistCall))}
    (h : List.Forall₂ (HVShows le) tr parts) {q : List (SEvent K HistCall)} (hq : q <+: parts.flatten) :
    ∃ p P, p <+: tr ∧ P <+: parts ∧ p.length = P.length ∧ P.flatten = q := by
  induction h generalizing q with
  | nil => exact ⟨[], [], List.prefix_rfl, List.prefix_rfl, rfl, (List.prefix_nil.1 hq).symm⟩
  | @cons e part tr parts he _ ih =>
    have hpart : part = [] ∨ ∃ x, part = [x] := by
      cases he <;> first | exact .inl rfl | exact .inr ⟨_, rfl⟩
    rw [List.flatten_cons] at hq
    rcases hpart with rfl | ⟨x, rfl⟩
    · obtain ⟨p, P, h1, h2, h3, h4⟩ := ih hq
      exact ⟨e :: p, [] :: P, by simpa using h1, by simpa using h2, by simp [h3], by simpa using h4⟩
    · cases q with
      | nil => exact ⟨[], [], List.nil_prefix, List.nil_prefix, rfl, rfl⟩
      | cons y q =>
        rw [List.singleton_append, List.cons_prefix_cons] at hq
        obtain ⟨rfl, hq⟩ := hq
        obtain ⟨p, P, h1, h2, h3, h4⟩ := ih hq
        exact ⟨e :: p, [y] :: P, by simpa using h1, by simpa using h2, by simp [h3], by simpa using h4⟩

theorem hvEmitted_mem {t : Tid} {k : K} {r : List Nat × Nat × F64} {tr : List (HVEvent K)}
    (h : (k, r) ∈ hvEmitted t tr) : ∃ p q, tr = p ++ .emit t k r :: q := by
  induction tr with
  | nil => cases h
  | cons e tr ih =>
    have old : (k, r) ∈ hvEmitted t tr → ∃ p q, e :: tr = p ++ .emit t k r :: q := fun h => by
      obtain ⟨p, q, hpq⟩ := ih h
      exact ⟨e :: p, q, by rw [hpq]; rfl⟩
    cases e with
    | emit t' k' r' =>
      simp only [hvEmitted] at h
      split at h
      · rename_i ht
        rcases List.mem_cons.1 h with h | h
        · cases h; exact ⟨[], tr, by rw [ht]; rfl⟩
        · exact old h
      · exact old h
    | _ => exact old h

/-- C84, a pass over the vector while other threads work on it: no key twice, every sample that of the observations over
at some moment of the pass, and no key left out that was in the vector all the time. -/
theorem C84_pass {c : ShardConf K} (hc : ∀ k, c.shardOf k < c.n) {le : List F64} {tr₁ tr₂ tr₃ : List (HVEvent K)} {t : Tid}
    {acc : List (K × List Empty)} {s : HVSys K}
    (h : Exec (HVStep c le) (HVSys.new le.length) (tr₁ ++ .vec (.startPass t) :: tr₂ ++ .vec (.endPass t acc) :: tr₃) s)
    (hone : .vec (.startPass t) ∉ tr₂) :
    ((hvEmitted t tr₂).map Prod.fst).Nodup ∧
      (∀ k r, (k, r) ∈ hvEmitted t tr₂ → ∃ ys hist, HVWas t tr₁ tr₂ k ys ∧ HistOf le ys hist ∧ hist.sample = r) ∧
      ∀ k, HVThere t tr₁ tr₂ k → k ∈ (hvEmitted t tr₂).map Prod.fst := by
  have hsample : ∀ k r, (k, r) ∈ hvEmitted t tr₂ →
      ∃ ys hist, HVWas t tr₁ tr₂ k ys ∧ HistOf le ys hist ∧ hist.sample = r := by
    intro k r hm
    obtain ⟨p, q, rfl⟩ := hvEmitted_mem hm
    have h' : Exec (HVStep c le) (HVSys.new le.length)
        ((tr₁ ++ .vec (.startPass t) :: p) ++ .emit t k r :: (q ++ .vec (.endPass t acc) :: tr₃)) s := by
      simpa using h
    obtain ⟨xs, ys, hist, z1, z2, z3, z4⟩ := C84_sample h'
    exact ⟨ys, hist, ⟨p, xs, List.prefix_append _ _, z1, z2⟩, z3, z4⟩
  obtain ⟨parts, a, g1, g2, g3⟩ := hv_keys h
  obtain ⟨PA, PB, hA, hB, rfl⟩ := forall₂_split g1
  obtain ⟨P₁, PC, h1, hC, rfl⟩ := forall₂_split hA
  cases hC with
  | @cons _ st _ P₂ hst h2 =>
  cases hB with
  | @cons _ en _ P₃ hen h3 =>
  have hst' : st = [.startPass t] := by
    cases hst with
    | vec _ e' h hu => cases e' <;> cases h; rfl
  obtain ⟨acc', rfl⟩ : ∃ acc', en = [.endPass t acc'] := by
    cases hen with
    | vec _ e' h hu => cases e' <;> cases h; exact ⟨_, rfl⟩
  subst hst'
  have hx : Exec (SStep c) SSys.new (P₁.flatten ++ .startPass t :: P₂.flatten ++ .endPass t acc' :: P₃.flatten) a := by
    simpa using g2.exec
  obtain ⟨z1, _, z3⟩ := C24_pass hc hx (by
    intro hm
    obtain ⟨part, hp, hm⟩ := List.mem_flatten.1 hm
    obtain ⟨e, he, hs⟩ : ∃ e ∈ tr₂, HVShows le e part := forall₂_mem h2 hp
    cases hs with
    | vec e e' h hu =>
      rw [List.mem_singleton] at hm
      subst hm h
      exact hone he
    | _ => simp at hm)
  rw [shows_keys h2] at z1
  refine ⟨z1, hsample, fun k hk => ?_⟩
  rw [← shows_keys h2]
  obtain ⟨us, hus⟩ := z3 k (by
    intro q hq hnone
    obtain ⟨p, P, y1, y2, y3, rfl⟩ := shows_prefix h2 hq
    refine hk p y1 (g3 (tr₁ ++ .vec (.startPass t) :: p) (P₁ ++ [.startPass t] :: P) ?_ ?_ ?_ k (by simpa using hnone))
    · exact ((List.prefix_append_right_inj _).2 (List.cons_prefix_cons.2 ⟨rfl, y1⟩)).trans (List.prefix_append _ _)
    · exact ((List.prefix_append_right_inj _).2 (List.cons_prefix_cons.2 ⟨rfl, y2⟩)).trans (List.prefix_append _ _)
    · simp [h1.length_eq, y3])
  exact List.mem_map.2 ⟨_, hus, rfl⟩

/-! ## The text of a pass -/

theorem histOf_conc {le xs : List F64} {h : HistInner} (hh : HistOf le xs h) : h = histConc le xs := by
  have := (histConc_ok le xs).1
  rw [show histObserveAll le (HistInner.default le.length) xs = .ok h from hh] at this
  exact Out.ok.inj this

theorem sumUp_observe (ys zs : List F64) :
    (ys.map HistCall.observe).foldl (fun a c => HistCall.apply c a) zs = zs ++ ys := by
  induction ys generalizing zs with
  | nil => simp
  | cons y ys ih =>
    rw [List.map_cons, List.foldl_cons, ih]
    simp [HistCall.apply, HistCall.value]

omit [DecidableEq K] in
theorem hvSamples_run {E : Type} (enc : Encoder E) (n : Name) (labels : K → Labels) (le : List F64)
    (l : List (K × List F64)) :
    hvSamples enc n labels le (l.map fun q => (q.1, (histConc le q.2).sample)) =
      passSamples enc n labels (.histogram le) (histOps le) (l.map fun q => (q.1, q.2.map HistCall.observe)) := by
  induction l with
  | nil => rfl
  | cons q l ih =>
    simp only [List.map_cons, hvSamples, passSamples]
    rw [stateAfter_follows (hist_follows le) _ (fun _ _ => trivial), ih, sumUp, sumUp_observe, List.nil_append]
    rfl

theorem mem_finished {tr : List (HVEvent K)} {k : K} {xs : List F64} (h : finishedOf tr k = some xs) {x : F64}
    (hx : x ∈ xs) : ∃ t u, .observe t k (.done u x) ∈ tr := by
  induction tr using List.reverseRecOn generalizing xs with
  | nil => cases h
  | append_singleton tr e ih =>
    rw [finishedOf_snoc] at h
    have old : ∀ xs', finishedOf tr k = some xs' → x ∈ xs' → ∃ t u, HVEvent.observe t k (.done u x) ∈ tr ++ [e] :=
      fun xs' h' hx' => by
        obtain ⟨t, u, ht⟩ := ih h' hx'
        exact ⟨t, u, List.mem_append_left _ ht⟩
    unfold finishedAfter at h
    split at h
    · split at h
      · cases h; cases hx
      · exact old xs h hx
    · rename_i t k' u y
      split at h
      · rename_i hk
        subst hk
        cases hm : finishedOf tr k with
        | none => rw [hm] at h; cases h
        | some xs' =>
          rw [hm] at h
          cases h
          rcases List.mem_append.1 hx with hx | hx
          · exact old xs' hm hx
          · rw [List.mem_singleton.1 hx]
            exact ⟨t, u, by simp⟩
      · exact old xs h hx
    · split at h
      · cases h
      · exact old xs h hx
    · exact old xs h hx

omit [DecidableEq K] in
/-- Samples of known observations are those of a list of them. -/
theorem hv_values {le : List F64} {em : List (K × (List Nat × Nat × F64))} {was : K → List F64 → Prop}
    (p2 : ∀ k r, (k, r) ∈ em → ∃ ys hist, was k ys ∧ HistOf le ys hist ∧ hist.sample = r) :
    ∃ l : List (K × List F64), (l.map fun q => (q.1, (histConc le q.2).sample)) = em ∧ ∀ q ∈ l, was q.1 q.2 := by
  induction em with
  | nil => exact ⟨[], rfl, by simp⟩
  | cons q em ih =>
    obtain ⟨l, h1, h2⟩ := ih fun k r hm => p2 k r (by simp [hm])
    obtain ⟨ys, hist, z1, z2, z3⟩ := p2 q.1 q.2 (by simp)
    refine ⟨(q.1, ys) :: l, ?_, ?_⟩
    · rw [List.map_cons, h1, ← histOf_conc z2, z3]
    · intro q' hq'
      rcases List.mem_cons.1 hq' with rfl | hq'
      · exact z1
      · exact h2 q' hq'

omit [DecidableEq K] in
/-- The text of samples that are those of known observations. -/
theorem hv_text {le : List F64} {em : List (K × (List Nat × Nat × F64))} {was : K → List F64 → Prop} {there : K → Prop}
    (p1 : (em.map Prod.fst).Nodup)
    (p2 : ∀ k r, (k, r) ∈ em → ∃ ys hist, was k ys ∧ HistOf le ys hist ∧ hist.sample = r)
    (p3 : ∀ k, there k → k ∈ em.map Prod.fst) (hle : NonDecreasing le) (hnan : ∀ b ∈ le, b.isNaN = false)
    {ryu : F64 → Bytes} {rf : Bytes → Option F64} (F : FloatText ryu rf) (m : Mode)
    (n : Name) (hn : MetricNameRe n.text) (labels : K → Labels) (hlab : ∀ k, ∀ l ∈ labels k, LabelNameRe l.1)
    (hfit : ∀ k ys, was k ys → (∀ x ∈ ys, x.isNaN = false) ∧ ys.length < 2 ^ 63) :
    ∃ st out, hvEncode (textEncoder m ryu) n labels le em (TextEnc.new []) = (.ok (), ⟨st, out⟩) ∧
      PassShows rf n.text .histogram labels (shownHistogram le) was there out := by
  obtain ⟨l, hl, hw⟩ := hv_values p2
  have hkeys : l.map Prod.fst = em.map Prod.fst := by rw [← hl, List.map_map]; rfl
  obtain ⟨st, out, ss, e1, e2, e3⟩ := pass_text (hist_follows le) (l.map fun q => (q.1, q.2.map HistCall.observe))
    (fun _ _ _ _ => trivial) F m n hn labels .histogram (.histogram le) (shownHistogram le) (fun _ => rfl) (by
      rintro ⟨k, us⟩ hq
      obtain ⟨⟨k', ys⟩, hq', e⟩ := List.mem_map.1 hq
      cases e
      obtain ⟨w1, w2⟩ := hfit _ _ (hw _ hq')
      simp only [sumUp, sumUp_observe, List.nil_append]
      exact ⟨hlab _, histConc_shown hle hnan w1 w2 _ _⟩)
  refine ⟨st, out, ?_, l, ss, by rw [hkeys]; exact p1, hw, fun k hk => by rw [hkeys]; exact p3 k hk, e2, ?_⟩
  · rw [← e1, hvEncode, passEncode, ← hl, hvSamples_run]
  · have : ((l.map fun q => (q.1, q.2.map HistCall.observe)).map fun q => (q.1, sumUp HistCall.apply [] q.2)) = l := by
      rw [List.map_map]
      conv_rhs => rw [← List.map_id l]
      refine List.map_congr_left fun q _ => ?_
      simp [sumUp, sumUp_observe]
    rw [this] at e3
    exact e3

/-- C84, the text of a pass over a vector of histograms in use: it reads back as one family, in which every key shows, for
each bound, how many of the observations over at some moment of the pass were at or below it, with their number and sum;
no key twice, and none left out that was there all the time. -/
theorem C84_text {c : ShardConf K} (hc : ∀ k, c.shardOf k < c.n) {le : List F64} (hle : NonDecreasing le)
    (hnan : ∀ b ∈ le, b.isNaN = false) {tr₁ tr₂ tr₃ : List (HVEvent K)} {t : Tid} {acc : List (K × List Empty)}
    {s : HVSys K}
    (h : Exec (HVStep c le) (HVSys.new le.length) (tr₁ ++ .vec (.startPass t) :: tr₂ ++ .vec (.endPass t acc) :: tr₃) s)
    (hone : .vec (.startPass t) ∉ tr₂) {ryu : F64 → Bytes} {rf : Bytes → Option F64} (F : FloatText ryu rf) (m : Mode)
    (n : Name) (hn : MetricNameRe n.text) (labels : K → Labels) (hlab : ∀ k, ∀ l ∈ labels k, LabelNameRe l.1)
    (hok : ∀ v k u x, .observe v k (.done u x) ∈ tr₁ ++ tr₂ → x.isNaN = false)
    (hfit : ∀ p k xs, p <+: tr₂ → finishedOf (tr₁ ++ .vec (.startPass t) :: p) k = some xs → xs.length < 2 ^ 63) :
    ∃ st out, hvEncode (textEncoder m ryu) n labels le (hvEmitted t tr₂) (TextEnc.new []) = (.ok (), ⟨st, out⟩) ∧
      PassShows rf n.text .histogram labels (shownHistogram le) (HVWas t tr₁ tr₂) (HVThere t tr₁ tr₂) out := by
  obtain ⟨p1, p2, p3⟩ := C84_pass hc h hone
  refine hv_text p1 p2 p3 hle hnan F m n hn labels hlab ?_
  rintro k ys ⟨p, xs, w1, w2, w3⟩
  refine ⟨fun x hx => ?_, by rw [w3.length_eq]; exact hfit p _ xs w1 w2⟩
  obtain ⟨v, u, hv⟩ := mem_finished w2 (w3.subset hx)
  refine hok v k u x ?_
  simp only [List.mem_append, List.mem_cons, reduceCtorEq, false_or] at hv ⊢
  exact hv.imp id fun hv => w1.subset hv

/-! ## A run with two threads -/

namespace HistVecExample
open SparseExample

/-- The vector `v`, with `h` as the histogram of 1. -/
def st (v : SSys Nat Empty) (h : HistSys) : HVSys Nat := ⟨v, fun k => if k = 1 then h else HistSys.new 1⟩

theorem st_update (v v' : SSys Nat Empty) (h h' : HistSys) :
    (⟨v', Function.update (st v h).hist 1 h'⟩ : HVSys Nat) = st v' h' := by
  unfold st
  congr 1
  funext k
  by_cases hk : k = 1
  · subst hk; simp
  · simp [hk]

theorem st_idle {v : SSys Nat Empty} {h : HistSys} {t : Tid} (hh : h.pc t = .idle) (k : Nat) :
    ((st v h).hist k).pc t = .idle := by
  show (if k = 1 then h else HistSys.new 1).pc t = _
  split
  · exact hh
  · rfl

abbrev le : List F64 := [F64.one]
abbrev Go (s : HVSys Nat) (e : HVEvent Nat) (s' : HVSys Nat) : Prop := HVStep conf le s e s' ∧ HVDisciplined s e

theorem vec {v v' : SSys Nat Empty} {h : HistSys} {e : SEvent Nat Empty} (hs : SStep conf v e v')
    (he : e.plain = true) (hh : h.pc e.tid = .idle) (hd : Disciplined v e := by intro t h; cases h <;> rfl) :
    Go (st v h) (.vec e) (st v' h) :=
  ⟨.vec (st v h) e v' hs he (st_idle hh), hd⟩

theorem observe {v : SSys Nat Empty} {h h' : HistSys} {e : HistEvent} (hs : HistStep le h e h')
    (hp : (v.thr e.tid).pc = .idle) (hg : 1 ∈ (v.thr e.tid).guards) (h0 : (h.pc e.tid).ofSampler = false)
    (h1 : (h'.pc e.tid).ofSampler = false) : Go (st v h) (.observe e.tid 1 e) (st v h') := by
  rw [← st_update v v h h']
  exact ⟨.observe (st v h) e.tid 1 e h' hs rfl hp hg (fun k' hk => by simp [st, hk, HistSys.new]) h0 h1, trivial⟩

theorem sampling {v : SSys Nat Empty} {h h' : HistSys} {e : HistEvent} {i j : Nat} {acc snap : List (Nat × List Empty)}
    (hs : HistStep le h e h') (hp : (v.thr e.tid).pc = .scan i j acc snap) (hk : (v.shards i)[j]? = some (1, []))
    (h1 : (h'.pc e.tid).ofSampler = true) : Go (st v h) (.sampling e.tid 1 e) (st v h') := by
  rw [← st_update v v h h']
  exact ⟨.sampling (st v h) e.tid 1 e h' i j acc snap hs rfl hp hk h1, trivial⟩

def tr₁ : List (HVEvent Nat) :=
  [.vec (.startGet 0 1), .vec (.lockR 0 1), .vec (.silent 0), .vec (.silent 0), .vec (.lockW 0 1), .vec (.insert 0 1),
    .vec (.silent 0), .vec (.acquired 0 1), .observe 0 1 (.start 0 F64.one), .observe 0 1 (.silent 0),
    .observe 0 1 (.bumped 0 F64.one)]

def tr₂ : List (HVEvent Nat) :=
  [.vec (.lockR 1 0), .vec (.silent 1), .vec (.lockR 1 1), .sampling 1 1 (.silent 1), .observe 0 1 (.silent 0),
    .observe 0 1 (.summed 0 F64.one), .observe 0 1 (.done 0 F64.one), .sampling 1 1 (.silent 1),
    .sampling 1 1 (.silent 1), .sampling 1 1 (.silent 1), .sampling 1 1 (.silent 1),
    .emit 1 1 ([1], 0, F64.add F64.pzero F64.one), .vec (.silent 1)]

def tr₃ : List (HVEvent Nat) :=
  [.vec (.release 0 1), .vec (.startRemove 1 1), .vec (.lockW 1 1),
    .removed 1 1 ⟨[1], 0, F64.add F64.pzero F64.one⟩]

/-- Thread 0 has counted its observation in a bucket, but not yet added it to the sum, when thread 1 begins its pass; it
has to wait with the sample. Then the entry is removed. -/
theorem run_disciplined : ∃ s₁ s, Exec Go (HVSys.new 1) (tr₁ ++ .vec (.startPass 1) :: tr₂.take 4) s₁ ∧
    (s₁.hist 1).pc 1 = .wantWrite ∧ (s₁.hist 1).pc 0 = .adding F64.one ∧
    Exec Go s₁ (tr₂.drop 4 ++ .vec (.endPass 1 [(1, [])]) :: tr₃) s := by
  let x := F64.one
  let v0 : SSys Nat Empty := SSys.new
  let v1 := v0.goto 0 (.getRead 1)
  let v2 := v1.goto 0 (.probe 1)
  let v3 := v2.goto 0 (.missed 1)
  let v4 := v3.goto 0 (.getWrite 1)
  let v5 := v4.goto 0 (.insert 1)
  let v6 := (v5.setShard 1 [(1, [])]).goto 0 (.inserted 1)
  let v7 := v6.goto 0 (.refind 1)
  let v8 := v7.setGuards 0 .idle [1]
  let v9 := v8.goto 1 (.collect 0 [])
  let v10 := v9.goto 1 (.scan 0 0 [] [])
  let v11 := v10.goto 1 (.collect 1 [])
  let v12 := v11.goto 1 (.scan 1 0 [] [(1, [])])
  let v13 := v12.goto 1 (.scan 1 1 [(1, [])] [(1, [])])
  let v14 := v13.goto 1 (.collect 2 [(1, [])])
  let v15 := v14.goto 1 .idle
  let v16 := v15.setGuards 0 .idle []
  let v17 := v16.goto 1 (.rmWrite 1)
  let v18 := v17.goto 1 (.removing 1)
  let v19 := (v18.setShard 1 []).goto 1 (.removed 1)
  let h0 := HistSys.new 1
  let h1 := h0.goto 0 (.wantRead 0 x)
  let h2 := h1.goto 0 (.bump 0 x)
  let h3 : HistSys := ⟨bumpBucket h2.inner 0, Function.update h2.pc 0 (.adding x)⟩
  let h4 := h3.goto 1 .wantWrite
  let h5 := h4.goto 0 (.loaded x F64.pzero)
  let h6 : HistSys := ⟨{ h5.inner with sum := F64.add F64.pzero x }, Function.update h5.pc 0 (.added x)⟩
  let h7 := h6.goto 0 .idle
  let h8 := h7.goto 1 (.sampling [])
  let h9 := h8.goto 1 (.sampling [1])
  let h10 := h9.goto 1 (.sampledInf [1] 0)
  let h11 := h10.goto 1 (.sampled [1] 0 (F64.add F64.pzero x))
  let h12 := h11.goto 1 .idle
  have w0 : Two v0 := fun _ _ => rfl
  have w1 : Two v1 := w0.goto (by decide) _
  have w4 : Two v4 := ((w1.goto (by decide) _).goto (by decide) _).goto (by decide) _
  have w8 : Two v8 :=
    (((((w4.goto (by decide) _).setShard _ _).goto (by decide) _).goto (by decide) _).setGuards (by decide) _ _)
  have w9 : Two v9 := w8.goto (by decide) _
  have w11 : Two v11 := (w9.goto (by decide) _).goto (by decide) _
  have w15 : Two v15 := (((w11.goto (by decide) _).goto (by decide) _).goto (by decide) _).goto (by decide) _
  have w17 : Two v17 := (w15.setGuards (by decide) _ _).goto (by decide) _
  have hnew : HVSys.new 1 = st v0 h0 := by
    unfold HVSys.new st
    congr 1
    funext k
    split <;> rfl
  have free1 : ∀ u, (h1.pc u).holdsWrite = false := by
    intro u
    by_cases hu : u = 0
    · subst hu; rfl
    · simp [h1, h0, HistSys.goto, HistSys.new, hu, HistPc.holdsWrite]
  have free7 : ∀ u, (h7.pc u).holdsWrite = false ∧ (h7.pc u).holdsRead = false := by
    intro u
    by_cases hu : u = 0
    · subst hu; exact ⟨rfl, rfl⟩
    by_cases hu1 : u = 1
    · subst hu1; exact ⟨rfl, rfl⟩
    · simp [h7, h6, h5, h4, h3, h2, h1, h0, HistSys.goto, HistSys.new, hu, hu1, HistPc.holdsWrite, HistPc.holdsRead]
  rw [hnew]
  refine ⟨st v12 h4, st v19 h12, ?_, rfl, rfl, ?_⟩
  · refine exec_cons (m := st v1 h0) (vec (.startGet v0 0 1 rfl) rfl rfl) ?_
    refine exec_cons (m := st v2 h0) (vec (.lockRead v1 0 1 rfl (w1.canRead (by decide) (by decide))) rfl rfl) ?_
    refine exec_cons (m := st v3 h0) (vec (.miss v2 0 1 rfl rfl) rfl rfl) ?_
    refine exec_cons (m := st v4 h0) (vec (.missRelease v3 0 1 rfl) rfl rfl) ?_
    refine exec_cons (m := st v5 h0) (vec (.lockWrite v4 0 1 rfl (w4.canWrite (by decide) (by decide) (by decide) (by decide)
      (by decide) (by decide))) rfl rfl) ?_
    refine exec_cons (m := st v6 h0) ?_ ?_
    · rw [← st_update v5 v6 h0 h0]
      exact ⟨.insert (st v5 h0) 0 1 v6 (.insertNew v5 0 1 [(1, [])] rfl rfl (List.Perm.refl _)) (st_idle rfl),
        fun _ h => by cases h⟩
    refine exec_cons (m := st v7 h0) (vec (.downgrade v6 0 1 rfl) rfl rfl) ?_
    refine exec_cons (m := st v8 h0) (vec (.refind v7 0 1 [] rfl rfl) rfl rfl) ?_
    refine exec_cons (m := st v8 h1) (observe (.start h0 0 x 0 rfl (by decide +kernel)) rfl (List.mem_singleton.2 rfl) rfl rfl) ?_
    refine exec_cons (m := st v8 h2) (observe (.lockRead h1 0 0 x rfl free1) rfl (List.mem_singleton.2 rfl) rfl rfl) ?_
    refine exec_cons (m := st v8 h3) (observe (.bump h2 0 0 x rfl (by decide)) rfl (List.mem_singleton.2 rfl) rfl rfl) ?_
    refine exec_cons (m := st v9 h3) (vec (.startPass v8 1 rfl) rfl rfl) ?_
    refine exec_cons (m := st v10 h3) (vec (.passLock v9 1 0 [] rfl (by decide) (w9.canRead (by decide) (by decide))) rfl rfl) ?_
    refine exec_cons (m := st v11 h3) (vec (.passNext v10 1 0 0 [] [] rfl (Nat.le_refl 0)) rfl rfl) ?_
    refine exec_cons (m := st v12 h3)
      (vec (.passLock v11 1 1 [] rfl (by decide) (w11.canRead (by decide) (by decide))) rfl rfl) ?_
    exact Exec.snoc (tr := []) .nil (sampling (i := 1) (j := 0) (.startSample h3 1 rfl) rfl rfl rfl)
  refine exec_cons (m := st v12 h5) (observe (.load h4 0 x F64.pzero rfl) rfl (List.mem_singleton.2 rfl) rfl rfl) ?_
  refine exec_cons (m := st v12 h6) (observe (.casOk h5 0 x F64.pzero rfl rfl) rfl (List.mem_singleton.2 rfl) rfl rfl) ?_
  refine exec_cons (m := st v12 h7) (observe (.unlockRead h6 0 x rfl) rfl (List.mem_singleton.2 rfl) rfl rfl) ?_
  refine exec_cons (m := st v12 h8) (sampling (i := 1) (j := 0) (.lockWrite h7 1 rfl free7) rfl rfl rfl) ?_
  refine exec_cons (m := st v12 h9) (sampling (i := 1) (j := 0) (.readBucket h8 1 [] 1 rfl rfl) rfl rfl rfl) ?_
  refine exec_cons (m := st v12 h10) (sampling (i := 1) (j := 0) (.readInf h9 1 [1] rfl rfl) rfl rfl rfl) ?_
  refine exec_cons (m := st v12 h11) (sampling (i := 1) (j := 0) (.readSum h10 1 [1] 0 rfl) rfl rfl rfl) ?_
  refine exec_cons (m := st v13 h12) ?_ ?_
  · rw [← st_update v12 v13 h11 h12]
    exact ⟨.emit (st v12 h11) 1 1 _ h12 v13 (.unlockWrite h11 1 [1] 0 _ rfl)
      (.emit v12 1 1 0 [] [(1, [])] 1 [] [] [] rfl rfl rfl (List.prefix_refl _) (List.prefix_refl _)), trivial⟩
  refine exec_cons (m := st v14 h12) (vec (.passNext v13 1 1 1 [(1, [])] [(1, [])] rfl (Nat.le_refl 1)) rfl rfl) ?_
  refine exec_cons (m := st v15 h12) (vec (.endPass v14 1 2 [(1, [])] rfl (Nat.le_refl 2)) rfl rfl) ?_
  refine exec_cons (m := st v16 h12) (vec (.release v15 0 1 rfl (List.mem_singleton.2 rfl)) rfl rfl) ?_
  refine exec_cons (m := st v17 h12) (vec (.startRemove v16 1 1 rfl) rfl rfl) ?_
  refine exec_cons (m := st v18 h12) (vec (.rmLock v17 1 1 rfl (w17.canWrite (by decide) (by decide) (by decide) (by decide)
    (by decide) (by decide))) rfl rfl) ?_
  exact Exec.snoc (tr := []) .nil
    ⟨.remove (st v18 h12) 1 1 v19 (.removeSome v18 1 1 [] [] rfl rfl (List.Perm.refl _)) (st_idle rfl), trivial⟩

theorem run : ∃ s, Exec (HVStep conf le) (HVSys.new 1)
    (tr₁ ++ .vec (.startPass 1) :: tr₂ ++ .vec (.endPass 1 [(1, [])]) :: tr₃) s := by
  obtain ⟨s₁, s, h1, _, _, h2⟩ := run_disciplined
  have h3 := exec_trans h1 h2
  exact ⟨s, exec_weaken (P := Go) (fun _ _ _ h => h.1) h3⟩

/-- The sample and the removed histogram both have the observation, which was over when they were taken. -/
example : finishedOf (tr₁ ++ .vec (.startPass 1) :: tr₂.take 7) 1 = some [F64.one] ∧
    finishedOf (tr₁ ++ .vec (.startPass 1) :: tr₂.take 6) 1 = some [] ∧
    hvEmitted 1 tr₂ = [(1, ([1], 0, F64.add F64.pzero F64.one))] := by
  refine ⟨?_, ?_, ?_⟩ <;> decide +kernel

/-- The conditions of `C84_text` hold of the run. -/
example : ∃ s, Exec (HVStep conf le) (HVSys.new 1) (tr₁ ++ .vec (.startPass 1) :: tr₂ ++ .vec (.endPass 1 [(1, [])]) :: tr₃) s ∧
    (∀ k, conf.shardOf k < conf.n) ∧ NonDecreasing le ∧ (∀ b ∈ le, b.isNaN = false) ∧ .vec (.startPass 1) ∉ tr₂ ∧
    (∀ v k u x, .observe v k (.done u x) ∈ tr₁ ++ tr₂ → x.isNaN = false) ∧ HVThere 1 tr₁ tr₂ 1 := by
  obtain ⟨s, h⟩ := run
  refine ⟨s, h, fun k => Nat.mod_lt _ (by decide), ?_, by decide +kernel, by simp [tr₂], ?_, ?_⟩
  · intro i j x y hij hx hy
    have h1 := (List.getElem?_eq_some_iff.1 hx).1
    have h2 := (List.getElem?_eq_some_iff.1 hy).1
    simp only [List.length_singleton] at h1 h2
    omega
  · intro v k u x hm
    simp only [tr₁, tr₂, List.mem_append, List.mem_cons, List.not_mem_nil, or_false, HVEvent.observe.injEq, reduceCtorEq,
      false_or, or_self, and_false, HistEvent.done.injEq] at hm
    rw [hm.2.2.2]
    decide +kernel
  · intro p hp
    have h : ∀ p ∈ tr₂.inits, finishedOf (tr₁ ++ .vec (.startPass 1) :: p) 1 ≠ none := by decide +kernel
    exact h p ((List.mem_inits _ _).2 hp)

end HistVecExample

end Measured
