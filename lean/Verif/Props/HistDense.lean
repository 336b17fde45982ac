import Verif.Spec.HistDense
import Verif.Props.HistVec

/-!
# C86: dense vectors of histograms
-/

namespace Measured
open Conc Spec

theorem hdVec_append (a b : List HDEvent) : hdVec (a ++ b) = hdVec a ++ hdVec b := by
  induction a with
  | nil => rfl
  | cons e a ih => cases e <;> simp [hdVec, ih]

theorem hdFinished_append (i : Nat) (a b : List HDEvent) :
    hdFinished i (a ++ b) = hdFinished i a ++ hdFinished i b := by
  induction a with
  | nil => rfl
  | cons e a ih =>
    cases e with
    | observe t j e => cases e <;> simp only [List.cons_append, hdFinished, ih] <;> split <;> rfl
    | _ => exact ih

/-- The observations on label `i` in the order in which they were added to the sum. -/
def hdSummed (i : Nat) : List HDEvent → List F64
  | [] => []
  | .observe _ j (.summed _ x) :: tr => if j = i then x :: hdSummed i tr else hdSummed i tr
  | _ :: tr => hdSummed i tr

theorem hdSummed_append (i : Nat) (a b : List HDEvent) : hdSummed i (a ++ b) = hdSummed i a ++ hdSummed i b := by
  induction a with
  | nil => rfl
  | cons e a ih =>
    cases e with
    | observe t j e => cases e <;> simp only [List.cons_append, hdSummed, ih] <;> split <;> rfl
    | _ => exact ih

/-- The vector alone, and each of its histograms alone. -/
structure HDInv (n : Nat) (le : List F64) (tr : List HDEvent) (s : HDSys) : Prop where
  exec : Exec (DStep n) DSys.new (hdVec tr) s.vec
  hist : ∀ o, ∃ htr, Exec (HistStep le) (HistSys.new le.length) htr (s.hist o) ∧
    ∀ i, s.vec.cells i = .done o → hdFinished i tr = (dones htr).map Prod.snd ∧ hdSummed i tr = (sums htr).map Prod.snd
  none : ∀ i, (∀ o, s.vec.cells i ≠ .done o) → hdFinished i tr = [] ∧ hdSummed i tr = []
  fresh : ∀ o, s.vec.next ≤ o → s.hist o = HistSys.new le.length

theorem dstep_cells {U : Type} {n : Nat} {tr : List (DEvent U)} {s v : DSys U} {e : DEvent U} (hi : DInv tr s)
    (hs : DStep n s e v) : (∀ i o, s.cells i = .done o → v.cells i = .done o) ∧
      (∀ i o, v.cells i = .done o → s.cells i = .done o ∨ (o = s.next ∧ ∀ o', s.cells i ≠ .done o')) ∧
      s.next ≤ v.next := by
  have upd : ∀ (i₀ : Nat) (x : DCell) (nx : Nat), (∀ o, s.cells i₀ ≠ .done o) → (∀ o, x = .done o → o = s.next) →
      s.next ≤ nx → (∀ i o, s.cells i = .done o → Function.update s.cells i₀ x i = .done o) ∧
      (∀ i o, Function.update s.cells i₀ x i = .done o → s.cells i = .done o ∨ (o = s.next ∧ ∀ o', s.cells i ≠ .done o')) ∧
      s.next ≤ nx := by
    intro i₀ x nx h1 h2 h3
    refine ⟨fun i o h => ?_, fun i o h => ?_, h3⟩
    · rw [Function.update_of_ne (show i ≠ i₀ by rintro rfl; exact h1 o h)]; exact h
    · by_cases hi : i = i₀
      · subst hi; rw [Function.update_self] at h; exact .inr ⟨h2 o h, h1⟩
      · rw [Function.update_of_ne hi] at h; exact .inl h
  cases hs with
  | slowRun t i hp hc => exact upd i _ _ (by rw [hc]; simp) (by simp) (Nat.le_refl _)
  | create t i hp =>
    have hc := (hi.running i t).2 hp
    exact upd i _ _ (by rw [hc]; simp) (by intro o h; cases h; rfl) (Nat.le_succ _)
  | initPanic t i hp =>
    have hc := (hi.running i t).2 hp
    exact upd i _ _ (by rw [hc]; simp) (by simp) (Nat.le_refl _)
  | _ => exact ⟨fun _ _ h => h, fun _ _ h => .inl h, Nat.le_refl _⟩

theorem hd_vec {n : Nat} {le : List F64} {tr : List HDEvent} {s : HDSys} {e : DEvent Empty} {v : DSys Empty}
    (h : HDInv n le tr s) (hs : DStep n s.vec e v) (e' : HDEvent) (he : hdVec [e'] = [e])
    (hf : ∀ i, hdFinished i [e'] = [] ∧ hdSummed i [e'] = []) : HDInv n le (tr ++ [e']) ⟨v, s.hist⟩ := by
  have hi := d_inv h.exec
  obtain ⟨c1, c2, c3⟩ := dstep_cells hi hs
  have hfin : ∀ i, hdFinished i (tr ++ [e']) = hdFinished i tr := fun i => by
    rw [hdFinished_append, (hf i).1, List.append_nil]
  have hsum : ∀ i, hdSummed i (tr ++ [e']) = hdSummed i tr := fun i => by
    rw [hdSummed_append, (hf i).2, List.append_nil]
  refine ⟨?_, fun o => ?_, fun i hno => ?_, fun o ho => h.fresh o (Nat.le_trans c3 ho)⟩
  · rw [hdVec_append, he]; exact h.exec.snoc hs
  · by_cases ho : o = s.vec.next
    · refine ⟨[], ?_, fun i hc => ?_⟩
      · show Exec _ _ [] (s.hist o)
        rw [h.fresh o (by omega)]; exact .nil
      · rw [hfin, hsum]
        rcases c2 i o hc with hc | ⟨_, hc⟩
        · have := (hi.done i o hc).1; omega
        · exact h.none i hc
    · obtain ⟨htr, h1, h2⟩ := h.hist o
      refine ⟨htr, h1, fun i hc => ?_⟩
      rw [hfin, hsum]
      rcases c2 i o hc with hc | ⟨hc, _⟩
      · exact h2 i hc
      · exact absurd hc ho
  · rw [hfin, hsum]; exact h.none i fun o hc => hno o (c1 i o hc)

/-- One step on one histogram. -/
theorem hd_hist {n : Nat} {le : List F64} {tr : List HDEvent} {s : HDSys} {i o : Nat} {e : HistEvent} {h : HistSys}
    (hI : HDInv n le tr s) (hc : s.vec.cells i = .done o) (hs : HistStep le (s.hist o) e h) (e' : HDEvent)
    (he : hdVec [e'] = []) (hf : ∀ j, hdFinished j [e'] = (if j = i then (dones [e]).map Prod.snd else []) ∧
      hdSummed j [e'] = if j = i then (sums [e]).map Prod.snd else []) :
    HDInv n le (tr ++ [e']) ⟨s.vec, Function.update s.hist o h⟩ := by
  have hi := d_inv hI.exec
  refine ⟨by rw [hdVec_append, he, List.append_nil]; exact hI.exec, fun o' => ?_, fun j hno => ?_, fun o' ho => ?_⟩
  · obtain ⟨htr, h1, h2⟩ := hI.hist o'
    by_cases ho : o' = o
    · subst ho
      refine ⟨htr ++ [e], ?_, fun j hj => ?_⟩
      · show Exec _ _ _ (Function.update s.hist o' h o')
        rw [Function.update_self]; exact h1.snoc hs
      · rw [hdFinished_append, (hf j).1, if_pos (hi.inj j i o' hj hc), (h2 j hj).1, dones_append, List.map_append,
          hdSummed_append, (hf j).2, if_pos (hi.inj j i o' hj hc), (h2 j hj).2, sums_append, List.map_append]
        exact ⟨rfl, rfl⟩
    · refine ⟨htr, ?_, fun j hj => ?_⟩
      · show Exec _ _ _ (Function.update s.hist o h o')
        rw [Function.update_of_ne ho]; exact h1
      · have hne : j ≠ i := by rintro rfl; rw [hc] at hj; cases hj; exact ho rfl
        rw [hdFinished_append, (hf j).1, if_neg hne, List.append_nil, hdSummed_append, (hf j).2, if_neg hne, List.append_nil]
        exact h2 j hj
  · have hne : j ≠ i := by rintro rfl; exact hno o hc
    rw [hdFinished_append, (hf j).1, if_neg hne, List.append_nil, hdSummed_append, (hf j).2, if_neg hne, List.append_nil]
    exact hI.none j hno
  · show Function.update s.hist o h o' = _
    rw [Function.update_of_ne]
    · exact hI.fresh o' ho
    · rintro rfl
      have := (hi.done i o' hc).1
      have : s.vec.next ≤ o' := ho
      omega

theorem hd_inv {n : Nat} {le : List F64} {tr : List HDEvent} {s : HDSys}
    (h : Exec (HDStep n le) (HDSys.new le.length) tr s) : HDInv n le tr s := by
  induction h with
  | nil => exact ⟨.nil, fun o => ⟨[], .nil, fun i hc => (by cases hc)⟩, fun _ _ => ⟨rfl, rfl⟩, fun _ _ => rfl⟩
  | @snoc tr s e s' _ hs ih =>
    have hi := d_inv ih.exec
    cases hs with
    | vec e v hv hq => exact hd_vec ih hv (.vec e) rfl fun _ => ⟨rfl, rfl⟩
    | observe t i o e h hh ht hp hg hq h0 h1 =>
      refine hd_hist ih (hi.refs t i o hg) hh (.observe t i e) rfl fun j => ?_
      cases e <;> simp only [hdFinished, hdSummed, dones, sums, List.map_nil, ite_self, and_self] <;>
        simp only [eq_comm (a := i)] <;> split <;> simp
    | sampling t i o e h hh ht hp hi' hc h1 =>
      refine hd_hist ih hc hh (.sampling t i e) rfl fun j => ?_
      rw [(sampler_event hh (by rw [ht]; exact h1)).2, (sampler_event hh (by rw [ht]; exact h1)).1]
      simp [hdFinished, hdSummed]
    | emit t i o r h v hh hc hv =>
      have h1 := hd_vec ih hv (.emit t i r) rfl fun _ => ⟨rfl, rfl⟩
      have hc' := (dstep_cells hi hv).1 i o hc
      have h2 := hd_hist (s := ⟨v, s.hist⟩) h1 hc' hh (.sampling t i (.sample t r)) rfl (fun j => by simp [hdFinished, hdSummed, dones, sums])
      refine ⟨?_, fun o' => ?_, fun j hj => ?_, h2.fresh⟩
      · have := h2.exec; rw [hdVec_append] at this; simpa [hdVec] using this
      · obtain ⟨htr, g1, g2⟩ := h2.hist o'
        refine ⟨htr, g1, fun j hj => ?_⟩
        have := g2 j hj
        rw [hdFinished_append, hdSummed_append] at this
        simpa [hdFinished, hdSummed] using this
      · have := h2.none j hj
        rw [hdFinished_append, hdSummed_append] at this
        simpa [hdFinished, hdSummed] using this

theorem hd_prefix {n : Nat} {le : List F64} {tr tr' : List HDEvent} {e : HDEvent} {s : HDSys}
    (h : Exec (HDStep n le) (HDSys.new le.length) (tr ++ e :: tr') s) :
    ∃ s₁ s₂, HDInv n le tr s₁ ∧ HDStep n le s₁ e s₂ := by
  obtain ⟨s₁, h1, h2⟩ := exec_split tr _ h
  obtain ⟨s₂, hs, _⟩ := exec_cons_inv h2
  exact ⟨s₁, s₂, hd_inv h1, hs⟩

/-- The sample, with the order of the observations. -/
theorem hd_sample {n : Nat} {le : List F64} {tr tr' : List HDEvent} {t : Tid} {i : Nat} {r : List Nat × Nat × F64}
    {s : HDSys} (h : Exec (HDStep n le) (HDSys.new le.length) (tr ++ .emit t i r :: tr') s) :
    ∃ hist, (hdSummed i tr).Perm (hdFinished i tr) ∧ HistOf le (hdSummed i tr) hist ∧ hist.sample = r := by
  obtain ⟨s₁, s₂, hi, hs⟩ := hd_prefix h
  cases hs with
  | emit _ _ o _ hh v hv hc hv' =>
    obtain ⟨htr, x1, x2⟩ := hi.hist o
    obtain ⟨st, z1, z2, z3⟩ := sample_is (tr' := []) (x1.snoc hv)
    rw [(x2 i hc).1, (x2 i hc).2, ← completed_eq]
    exact ⟨st, z1, z2, z3⟩

/-- C86. A sample written is that of exactly the observations on the label that are over, whatever the collecting thread
knows of them: none is missing, none half recorded, none counted twice. -/
theorem C86_sample {n : Nat} {le : List F64} {tr tr' : List HDEvent} {t : Tid} {i : Nat} {r : List Nat × Nat × F64}
    {s : HDSys} (h : Exec (HDStep n le) (HDSys.new le.length) (tr ++ .emit t i r :: tr') s) :
    ∃ ys hist, ys.Perm (hdFinished i tr) ∧ HistOf le ys hist ∧ hist.sample = r := by
  obtain ⟨hist, h1, h2, h3⟩ := hd_sample h
  exact ⟨_, hist, h1, h2, h3⟩

/-- No observation panics. (Lookups panic only if the `Default` of the metric type does.) -/
theorem C86_no_panic {n : Nat} {le : List F64} {tr : List HDEvent} {s : HDSys}
    (h : Exec (HDStep n le) (HDSys.new le.length) tr s) (t : Tid) (i : Nat) (u : Tid) : .observe t i (.panic u) ∉ tr := by
  intro hm
  obtain ⟨x, y, rfl⟩ := List.append_of_mem hm
  obtain ⟨s₁, s₂, hi, hs⟩ := hd_prefix h
  cases hs with
  | observe _ _ o _ hh hv =>
    obtain ⟨htr, x1, _⟩ := hi.hist o
    exact (histStep_inv (hist_inv x1).1 hv).2 u rfl

theorem hdEmitted_mem {t : Tid} {i : Nat} {r : List Nat × Nat × F64} {tr : List HDEvent} (h : (i, r) ∈ hdEmitted t tr) :
    ∃ p q, tr = p ++ .emit t i r :: q := by
  induction tr with
  | nil => cases h
  | cons e tr ih =>
    have old : (i, r) ∈ hdEmitted t tr → ∃ p q, e :: tr = p ++ .emit t i r :: q := fun h => by
      obtain ⟨p, q, hpq⟩ := ih h
      exact ⟨e :: p, q, by rw [hpq]; rfl⟩
    cases e with
    | emit t' i' r' =>
      simp only [hdEmitted] at h
      split at h
      · rename_i ht
        rcases List.mem_cons.1 h with h | h
        · cases h; exact ⟨[], tr, by rw [ht]; rfl⟩
        · exact old h
      · exact old h
    | _ => exact old h

theorem hd_keys {n : Nat} {le : List F64} {tr : List HDEvent} {s₀ s : HDSys} (h : Exec (HDStep n le) s₀ tr s) (t : Tid) :
    (denseEmitted t (hdVec tr)).map Prod.fst = (hdEmitted t tr).map Prod.fst := by
  have happ : ∀ a b : List HDEvent, hdEmitted t (a ++ b) = hdEmitted t a ++ hdEmitted t b := by
    intro a b
    induction a with
    | nil => rfl
    | cons e a ih => cases e <;> simp only [List.cons_append, hdEmitted, ih] <;> split <;> rfl
  have dapp : ∀ a b : List (DEvent Empty), denseEmitted t (a ++ b) = denseEmitted t a ++ denseEmitted t b := by
    intro a b
    induction a with
    | nil => rfl
    | cons e a ih => cases e <;> simp only [List.cons_append, denseEmitted, ih] <;> split <;> rfl
  induction h with
  | nil => rfl
  | @snoc tr s e s' _ hs ih =>
    rw [hdVec_append, dapp, happ, List.map_append, List.map_append, ih]
    congr 1
    cases hs with
    | vec e v hv hq => cases e <;> first | rfl | exact hq.elim
    | emit t' i o r h v hh hc hv =>
      simp only [hdVec, denseEmitted, hdEmitted]
      split <;> rfl
    | _ => rfl

/-- C86, a pass over the vector while other threads work on it: the labels in order and none twice, every sample that of
the observations over at some moment of the pass, and no label left out that the collecting thread knew to be in use when
it began. -/
theorem C86_pass {n : Nat} {le : List F64} {tr₁ tr₂ tr₃ : List HDEvent} {t : Tid} {s : HDSys}
    (h : Exec (HDStep n le) (HDSys.new le.length) (tr₁ ++ .vec (.startPass t) :: tr₂ ++ .vec (.endPass t) :: tr₃) s)
    (hone : .vec (.startPass t) ∉ tr₂) :
    ((hdEmitted t tr₂).map Prod.fst).Pairwise (· < ·) ∧
      (∀ i r, (i, r) ∈ hdEmitted t tr₂ → ∃ ys hist, HDWas t tr₁ tr₂ i ys ∧ HistOf le ys hist ∧ hist.sample = r) ∧
      ∀ i, HDThere t tr₁ i → i ∈ (hdEmitted t tr₂).map Prod.fst := by
  have hx := (hd_inv h).exec
  have hx' : Exec (DStep n) DSys.new (hdVec tr₁ ++ .startPass t :: hdVec tr₂ ++ .endPass t :: hdVec tr₃) s.vec := by
    rw [hdVec_append, hdVec_append] at hx; exact hx
  obtain ⟨s₁, e1, e2⟩ := exec_split (tr₁ ++ .vec (.startPass t) :: tr₂) _ h
  obtain ⟨s₂, e3, e4⟩ := exec_split tr₁ _ e1
  obtain ⟨s₃, _, e5⟩ := exec_cons_inv e4
  have hkeys := hd_keys e5 t
  obtain ⟨z1, _, z3⟩ := dense_pass hx' (by
    intro hm
    have : ∀ l : List HDEvent, .startPass t ∈ hdVec l → .vec (.startPass t) ∈ l := by
      intro l hl
      induction l with
      | nil => cases hl
      | cons e l ih =>
        cases e with
        | vec e =>
          rcases List.mem_cons.1 hl with hl | hl
          · rw [← hl]; simp
          · simp [ih hl]
        | emit t' i r =>
          rcases List.mem_cons.1 hl with hl | hl
          · cases hl
          · simp [ih hl]
        | _ => simp [ih hl]
    exact hone (this _ hm))
  rw [hkeys] at z1 z3
  refine ⟨z1, fun i r hm => ?_, fun i hi => z3 i hi⟩
  obtain ⟨p, q, rfl⟩ := hdEmitted_mem hm
  have h' : Exec (HDStep n le) (HDSys.new le.length)
      ((tr₁ ++ .vec (.startPass t) :: p) ++ .emit t i r :: (q ++ .vec (.endPass t) :: tr₃)) s := by
    simpa using h
  obtain ⟨ys, hist, z1, z2, z3⟩ := C86_sample h'
  exact ⟨ys, hist, ⟨p, List.prefix_append _ _, z1⟩, z2, z3⟩

theorem mem_hdFinished {i : Nat} {tr : List HDEvent} {x : F64} (hx : x ∈ hdFinished i tr) :
    ∃ t u, .observe t i (.done u x) ∈ tr := by
  induction tr with
  | nil => cases hx
  | cons e tr ih =>
    have old : x ∈ hdFinished i tr → ∃ t u, HDEvent.observe t i (.done u x) ∈ e :: tr := fun h => by
      obtain ⟨t, u, h⟩ := ih h
      exact ⟨t, u, by simp [h]⟩
    unfold hdFinished at hx
    split at hx
    · cases hx
    · rename_i h
      cases h
      split at hx
      · rename_i hj
        subst hj
        rcases List.mem_cons.1 hx with rfl | hx
        · exact ⟨_, _, List.mem_cons_self⟩
        · exact old hx
      · exact old hx
    · rename_i h
      cases h
      exact old hx

theorem hd_fits {tr₁ tr₂ : List HDEvent} {t : Tid} (hok : ∀ v i u x, .observe v i (.done u x) ∈ tr₁ ++ tr₂ → x.isNaN = false)
    (hfit : ∀ i, (hdFinished i (tr₁ ++ tr₂)).length < 2 ^ 63) {i : Nat} {ys : List F64} (h : HDWas t tr₁ tr₂ i ys) :
    (∀ x ∈ ys, x.isNaN = false) ∧ ys.length < 2 ^ 63 := by
  obtain ⟨p, w1, w2⟩ := h
  have hsub : hdFinished i (tr₁ ++ .vec (.startPass t) :: p) <+: hdFinished i (tr₁ ++ tr₂) := by
    obtain ⟨q, rfl⟩ := w1
    refine ⟨hdFinished i q, ?_⟩
    rw [hdFinished_append, hdFinished_append, hdFinished_append, List.append_assoc]
    rfl
  refine ⟨fun x hx => ?_, ?_⟩
  · obtain ⟨v, u, hv⟩ := mem_hdFinished (hsub.subset (w2.subset hx))
    exact hok v i u x hv
  · rw [w2.length_eq]
    exact Nat.lt_of_le_of_lt hsub.length_le (hfit i)

/-- C86, the text of a pass over a dense vector of histograms in use. -/
theorem C86_text {cells : Nat} {le : List F64} (hle : NonDecreasing le) (hnan : ∀ b ∈ le, b.isNaN = false)
    {tr₁ tr₂ tr₃ : List HDEvent} {t : Tid} {s : HDSys}
    (h : Exec (HDStep cells le) (HDSys.new le.length) (tr₁ ++ .vec (.startPass t) :: tr₂ ++ .vec (.endPass t) :: tr₃) s)
    (hone : .vec (.startPass t) ∉ tr₂) {ryu : F64 → Bytes} {rf : Bytes → Option F64} (F : FloatText ryu rf) (m : Mode)
    (n : Name) (hn : MetricNameRe n.text) (labels : Nat → Labels) (hlab : ∀ i, ∀ l ∈ labels i, LabelNameRe l.1)
    (hok : ∀ v i u x, .observe v i (.done u x) ∈ tr₁ ++ tr₂ → x.isNaN = false)
    (hfit : ∀ i, (hdFinished i (tr₁ ++ tr₂)).length < 2 ^ 63) :
    ∃ st out, hvEncode (textEncoder m ryu) n labels le (hdEmitted t tr₂) (TextEnc.new []) = (.ok (), ⟨st, out⟩) ∧
      PassShows rf n.text .histogram labels (shownHistogram le) (HDWas t tr₁ tr₂) (HDThere t tr₁) out := by
  obtain ⟨p1, p2, p3⟩ := C86_pass h hone
  exact hv_text (em := hdEmitted t tr₂) (p1.imp fun h => Nat.ne_of_lt h) p2 p3 hle hnan F m n hn labels hlab
    fun _ _ => hd_fits hok hfit

/-! ## A run with two threads -/

namespace HistDenseExample

/-- The vector `v`, with `h` as the first histogram made. -/
def st (v : DSys Empty) (h : HistSys) : HDSys := ⟨v, fun o => if o = 0 then h else HistSys.new 1⟩

theorem st_update (v v' : DSys Empty) (h h' : HistSys) : (⟨v', Function.update (st v h).hist 0 h'⟩ : HDSys) = st v' h' := by
  unfold st
  congr 1
  funext k
  by_cases hk : k = 0
  · subst hk; simp
  · simp [hk]

theorem st_idle {v : DSys Empty} {h : HistSys} {t : Tid} (hh : h.pc t = .idle) (k : Nat) :
    ((st v h).hist k).pc t = .idle := by
  show (if k = 0 then h else HistSys.new 1).pc t = _
  split
  · exact hh
  · rfl

abbrev le : List F64 := [F64.one]

theorem vec {v v' : DSys Empty} {h : HistSys} {e : DEvent Empty} (hs : DStep 2 v e v') (hh : (st v h).Free e) :
    HDStep 2 le (st v h) (.vec e) (st v' h) := .vec (st v h) e v' hs hh

theorem observe {v : DSys Empty} {h h' : HistSys} {e : HistEvent} (hs : HistStep le h e h')
    (hp : v.pc e.tid = .idle) (hg : (1, 0) ∈ v.refs e.tid) (h0 : (h.pc e.tid).ofSampler = false)
    (h1 : (h'.pc e.tid).ofSampler = false) : HDStep 2 le (st v h) (.observe e.tid 1 e) (st v h') := by
  rw [← st_update v v h h']
  exact .observe (st v h) e.tid 1 0 e h' hs rfl hp hg (fun k' hk => by simp [st, hk, HistSys.new]) h0 h1

theorem sampling {v : DSys Empty} {h h' : HistSys} {e : HistEvent} (hs : HistStep le h e h')
    (hp : v.pc e.tid = .pass 1) (hc : v.cells 1 = .done 0) (h1 : (h'.pc e.tid).ofSampler = true) :
    HDStep 2 le (st v h) (.sampling e.tid 1 e) (st v h') := by
  rw [← st_update v v h h']
  exact .sampling (st v h) e.tid 1 0 e h' hs rfl hp (by decide) hc h1

def tr₁ : List HDEvent :=
  [.vec (.startGet 0 1), .vec (.silent 0), .vec (.silent 0), .vec (.init 0 1 0), .vec (.acquired 0 1 0),
    .observe 0 1 (.start 0 F64.one), .observe 0 1 (.silent 0), .observe 0 1 (.bumped 0 F64.one), .vec (.sync 1 0)]

def tr₂ : List HDEvent :=
  [.vec (.skip 1 0), .sampling 1 1 (.silent 1), .observe 0 1 (.silent 0), .observe 0 1 (.summed 0 F64.one),
    .observe 0 1 (.done 0 F64.one), .sampling 1 1 (.silent 1), .sampling 1 1 (.silent 1), .sampling 1 1 (.silent 1),
    .sampling 1 1 (.silent 1), .emit 1 1 ([1], 0, F64.add F64.pzero F64.one)]

/-- Thread 0 has counted its observation in a bucket, but not yet added it to the sum, when thread 1 begins its pass; it
has to wait with the sample. -/
theorem run' : ∃ s₁ v h, Exec (HDStep 2 le) (HDSys.new 1) (tr₁ ++ .vec (.startPass 1) :: tr₂.take 2) s₁ ∧
    (s₁.hist 0).pc 1 = .wantWrite ∧ (s₁.hist 0).pc 0 = .adding F64.one ∧
    Exec (HDStep 2 le) s₁ (tr₂.drop 2 ++ [.vec (.endPass 1)]) (st v h) ∧
    (v.pc 0 = .idle ∧ v.pc 1 = .idle ∧ v.cells 1 = .done 0 ∧ v.know 1 0 = none ∧ v.know 1 1 = some 0 ∧ (1, 0) ∈ v.refs 0) ∧
    h.inner = ⟨[1], 0, F64.add F64.pzero F64.one⟩ ∧ ∀ u, h.pc u = .idle := by
  let x := F64.one
  let v0 : DSys Empty := DSys.new
  let v1 := v0.goto 0 (.check 1)
  let v2 := v1.goto 0 (.slow 1)
  let v3 := (v2.setCell 1 (.running 0)).goto 0 (.init 1)
  let v4 := (({ v3 with next := 1, objs := Function.update v3.objs 0 [] }.setCell 1 (.done 0)).goto 0
        (.got 1 0)).learn 0 1 0
  let v5 := (v4.goto 0 .idle).hand 0 1 0
  let v6 := { v5 with know := Function.update v5.know 1 fun i => joinKnow (v5.know 1 i) (v5.know 0 i) }
  let v7 := v6.goto 1 (.pass 0)
  let v8 := v7.goto 1 (.pass 1)
  let v9 := (v8.goto 1 (.pass 2)).learn 1 1 0
  let v10 := v9.goto 1 .idle
  let h0 := HistSys.new 1
  let h1 := h0.goto 0 (.wantRead 0 x)
  let h2 := h1.goto 0 (.bump 0 x)
  let h3 : HistSys := ⟨bumpBucket h2.inner 0, Function.update h2.pc 0 (.adding x)⟩
  let h4 := h3.goto 1 .wantWrite
  let h5 := h4.goto 0 (.loaded x F64.pzero)
  let h6 : HistSys := ⟨{ h5.inner with sum := F64.add F64.pzero x }, Function.update h5.pc 0 (.added x)⟩
  let h7 := h6.goto 0 .idle
  let h8 := h7.goto 1 (.sampling [])
  let h9 := h8.goto 1 (.sampling [1])
  let h10 := h9.goto 1 (.sampledInf [1] 0)
  let h11 := h10.goto 1 (.sampled [1] 0 (F64.add F64.pzero x))
  let h12 := h11.goto 1 .idle
  have hnew : HDSys.new 1 = st v0 h0 := by
    unfold HDSys.new st
    congr 1
    funext k
    split <;> rfl
  have free1 : ∀ u, (h1.pc u).holdsWrite = false := by
    intro u
    by_cases hu : u = 0
    · subst hu; rfl
    · simp [h1, h0, HistSys.goto, HistSys.new, hu, HistPc.holdsWrite]
  have free7 : ∀ u, (h7.pc u).holdsWrite = false ∧ (h7.pc u).holdsRead = false := by
    intro u
    by_cases hu : u = 0
    · subst hu; exact ⟨rfl, rfl⟩
    by_cases hu1 : u = 1
    · subst hu1; exact ⟨rfl, rfl⟩
    · simp [h7, h6, h5, h4, h3, h2, h1, h0, HistSys.goto, HistSys.new, hu, hu1, HistPc.holdsWrite, HistPc.holdsRead]
  rw [hnew]
  have idle12 : ∀ u, h12.pc u = .idle := by
    intro u
    by_cases hu : u = 0
    · subst hu; rfl
    by_cases hu1 : u = 1
    · subst hu1; rfl
    · simp [h12, h11, h10, h9, h8, h7, h6, h5, h4, h3, h2, h1, h0, HistSys.goto, HistSys.new, hu, hu1]
  refine ⟨st v8 h4, v10, h12, ?_, rfl, rfl, ?_, ⟨rfl, rfl, rfl, rfl, rfl, List.mem_singleton.2 rfl⟩, rfl, idle12⟩
  · refine exec_cons (m := st v1 h0) (vec (.startGet v0 0 1 rfl (by decide)) (st_idle rfl)) ?_
    refine exec_cons (m := st v2 h0) (vec (.fastMiss v1 0 1 rfl rfl) (st_idle rfl)) ?_
    refine exec_cons (m := st v3 h0) (vec (.slowRun v2 0 1 rfl rfl) (st_idle rfl)) ?_
    refine exec_cons (m := st v4 h0) (vec (.create v3 0 1 rfl) (st_idle rfl)) ?_
    refine exec_cons (m := st v5 h0) (vec (.created v4 0 1 0 rfl) (st_idle rfl)) ?_
    refine exec_cons (m := st v5 h1) (observe (.start h0 0 x 0 rfl (by decide +kernel)) rfl (List.mem_singleton.2 rfl) rfl rfl) ?_
    refine exec_cons (m := st v5 h2) (observe (.lockRead h1 0 0 x rfl free1) rfl (List.mem_singleton.2 rfl) rfl rfl) ?_
    refine exec_cons (m := st v5 h3) (observe (.bump h2 0 0 x rfl (by decide)) rfl (List.mem_singleton.2 rfl) rfl rfl) ?_
    refine exec_cons (m := st v6 h3) (vec (.sync v5 1 0) trivial) ?_
    refine exec_cons (m := st v7 h3) (vec (.startPass v6 1 rfl) (st_idle rfl)) ?_
    refine exec_cons (m := st v8 h3) (vec (.skip v7 1 0 rfl (by decide) rfl) (st_idle rfl)) ?_
    exact Exec.snoc (tr := []) .nil (sampling (.startSample h3 1 rfl) rfl rfl rfl)
  refine exec_cons (m := st v8 h5) (observe (.load h4 0 x F64.pzero rfl) rfl (List.mem_singleton.2 rfl) rfl rfl) ?_
  refine exec_cons (m := st v8 h6) (observe (.casOk h5 0 x F64.pzero rfl rfl) rfl (List.mem_singleton.2 rfl) rfl rfl) ?_
  refine exec_cons (m := st v8 h7) (observe (.unlockRead h6 0 x rfl) rfl (List.mem_singleton.2 rfl) rfl rfl) ?_
  refine exec_cons (m := st v8 h8) (sampling (.lockWrite h7 1 rfl free7) rfl rfl rfl) ?_
  refine exec_cons (m := st v8 h9) (sampling (.readBucket h8 1 [] 1 rfl rfl) rfl rfl rfl) ?_
  refine exec_cons (m := st v8 h10) (sampling (.readInf h9 1 [1] rfl rfl) rfl rfl rfl) ?_
  refine exec_cons (m := st v8 h11) (sampling (.readSum h10 1 [1] 0 rfl) rfl rfl rfl) ?_
  refine exec_cons (m := st v9 h12) ?_ ?_
  · rw [← st_update v8 v9 h11 h12]
    refine .emit (st v8 h11) 1 1 0 _ h12 v9 (.unlockWrite h11 1 [1] 0 _ rfl) rfl
      (.emit v8 1 1 0 [] rfl (by decide) rfl List.nil_prefix ?_)
    intro k hk
    have : v8.know 1 1 = some 0 := rfl
    rw [this] at hk
    cases hk
    exact Nat.le_refl _
  exact Exec.snoc (tr := []) .nil (vec (.endPass v9 1 2 rfl (by decide)) (st_idle rfl))

theorem run : ∃ s, Exec (HDStep 2 le) (HDSys.new 1) (tr₁ ++ .vec (.startPass 1) :: tr₂ ++ .vec (.endPass 1) :: []) s := by
  obtain ⟨s₁, v, h, h1, _, _, h2, _⟩ := run'
  have h3 := exec_trans h1 h2
  exact ⟨_, h3⟩

/-- The sample has the observation, which was not over when the pass began. -/
example : hdFinished 1 tr₁ = [] ∧ hdFinished 1 (tr₁ ++ .vec (.startPass 1) :: tr₂.take 5) = [F64.one] ∧
    hdEmitted 1 tr₂ = [(1, ([1], 0, F64.add F64.pzero F64.one))] := by
  refine ⟨?_, ?_, ?_⟩ <;> decide +kernel

/-- The conditions of `C86_text` hold of the run. -/
example : ∃ s, Exec (HDStep 2 le) (HDSys.new 1) (tr₁ ++ .vec (.startPass 1) :: tr₂ ++ .vec (.endPass 1) :: []) s ∧
    NonDecreasing le ∧ (∀ b ∈ le, b.isNaN = false) ∧ .vec (.startPass 1) ∉ tr₂ ∧
    (∀ v i u x, .observe v i (.done u x) ∈ tr₁ ++ tr₂ → x.isNaN = false) ∧
    (∀ i, (hdFinished i (tr₁ ++ tr₂)).length < 2 ^ 63) ∧ HDThere 1 tr₁ 1 := by
  obtain ⟨s, h⟩ := run
  refine ⟨s, h, ?_, by decide +kernel, by simp [tr₂], ?_, ?_, ?_⟩
  · intro i j x y hij hx hy
    have h1 := (List.getElem?_eq_some_iff.1 hx).1
    have h2 := (List.getElem?_eq_some_iff.1 hy).1
    simp only [List.length_singleton] at h1 h2
    omega
  · intro v k u x hm
    simp only [tr₁, tr₂, List.mem_append, List.mem_cons, List.not_mem_nil, or_false, HDEvent.observe.injEq, reduceCtorEq,
      false_or, or_self, and_false, HistEvent.done.injEq] at hm
    rw [hm.2.2.2]
    decide +kernel
  · intro i
    simp only [tr₁, tr₂, List.cons_append, List.nil_append, hdFinished]
    split <;> simp
  · refine ⟨[.startGet 0 1, .silent 0, .silent 0, .init 0 1 0], [.sync 1 0], 0, 0, rfl, ?_⟩
    exact .sync (tr := []) .start

end HistDenseExample

end Measured
