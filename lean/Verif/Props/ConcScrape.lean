import Verif.Model.ConcScrape
import Verif.Spec.ConcScrape
import Verif.Props.Api
import Verif.Props.Name
import Verif.Props.SparseConc
import Verif.Props.DenseConc
import Verif.Props.VecLive

/-!
# C68: a scrape of a vector in use

Threads create, update, remove and collect at the same time; the text of a collection reads back as true values.
-/

namespace Measured
open Conc Spec

section text
variable {K C M A : Type}

theorem uses_shared {o : MetricOps C M} {okC : C → Prop} {conc : A → M} {zero : A} {apply : C → A → A}
    (hf : Follows o okC conc zero apply) (us : List C) (hus : ∀ c ∈ us, okC c) (a : A) :
    o.uses (conc a) (us.map .shared) = .ok (conc (us.foldl (fun a c => apply c a) a)) := by
  induction us generalizing a with
  | nil => rfl
  | cons c us ih =>
    simp only [List.map_cons, MetricOps.uses, MetricOps.use]
    rw [hf.shared c a (hus c (by simp))]
    exact ih (fun c hc => hus c (by simp [hc])) _

theorem stateAfter_follows {o : MetricOps C M} {okC : C → Prop} {conc : A → M} {zero : A} {apply : C → A → A}
    (hf : Follows o okC conc zero apply) (us : List C) (hus : ∀ c ∈ us, okC c) :
    stateAfter o us = .ok (conc (sumUp apply zero us)) := by
  rw [stateAfter, ← hf.zero]
  exact uses_shared hf us hus zero

theorem passSamples_run {E : Type} (enc : Encoder E) (n : Name) (labels : K → Labels) (view : M → Metric)
    {o : MetricOps C M} {okC : C → Prop} {conc : A → M} {zero : A} {apply : C → A → A}
    (hf : Follows o okC conc zero apply) (l : List (K × List C)) (hl : ∀ q ∈ l, ∀ c ∈ q.2, okC c) :
    passSamples enc n labels view o l =
      enc.runAll ((l.map fun q => (labels q.1, view (conc (sumUp apply zero q.2)))).map fun s => .sample s.2 s.1 n) := by
  induction l with
  | nil => rfl
  | cons q l ih =>
    obtain ⟨k, us⟩ := q
    simp only [passSamples, List.map_cons, runAll_cons]
    rw [stateAfter_follows hf us (hl (k, us) (by simp)), ih fun q hq => hl q (by simp [hq])]
    rfl

/-- What is written for a list of entries reads back as one family with these entries. -/
theorem pass_text {o : MetricOps C M} {okC : C → Prop} {conc : A → M} {zero : A} {apply : C → A → A}
    (hf : Follows o okC conc zero apply) (l : List (K × List C)) (hl : ∀ q ∈ l, ∀ c ∈ q.2, okC c)
    {ryu : F64 → Bytes} {rf : Bytes → Option F64} (F : FloatText ryu rf) (m : Mode) (n : Name) (hn : MetricNameRe n.text)
    (labels : K → Labels) (kind : Kind) (view : M → Metric) (shown : Bytes → Labels → A → List Expected)
    (hk : ∀ x, (view x).kind = kind)
    (hfit : ∀ q ∈ l, LabelsOk (labels q.1) ∧ Fits (view (conc (sumUp apply zero q.2))) ∧
      expected n.text (labels q.1) (view (conc (sumUp apply zero q.2))) =
        shown n.text (labels q.1) (sumUp apply zero q.2)) :
    ∃ st out ss, passEncode (textEncoder m ryu) n kind labels view o l (TextEnc.new []) = (.ok (), ⟨st, out⟩) ∧
      readFamilies rf out = some [⟨n.text, none, some (kindWord kind), ss⟩] ∧
      List.Forall₂ (SampleReads rf)
        ((l.map fun q => (q.1, sumUp apply zero q.2)).flatMap fun q => shown n.text (labels q.1) q.2) ss := by
  let fam : FamilyIn := ⟨n, none, kind, l.map fun q => (labels q.1, view (conc (sumUp apply zero q.2)))⟩
  have hfok : FamilyOk fam := by
    refine ⟨by rw [← n.text_eq]; exact hn, by simp [fam], ?_, ?_, ?_⟩
    · rintro ⟨ls, x⟩ hx
      obtain ⟨q, _, e⟩ := List.mem_map.1 hx
      cases e; exact hk _
    · rintro ⟨ls, x⟩ hx
      obtain ⟨q, hq, e⟩ := List.mem_map.1 hx
      cases e; exact (hfit q hq).1
    · rintro ⟨ls, x⟩ hx
      obtain ⟨q, hq, e⟩ := List.mem_map.1 hx
      cases e; exact (hfit q hq).2.1
  obtain ⟨st, out, gs, _, e1, e2, e3, _⟩ := C33_exposition_partial F m [fam] (by simpa using hfok)
  cases e3 with
  | @cons _ g _ gs' hfam htl =>
    cases htl
    obtain ⟨gn, gh, gt, gss⟩ := g
    obtain ⟨r1, r2, r3, r4⟩ := hfam
    simp only [fam] at r1 r2 r3 r4
    subst r1 r2 r3
    refine ⟨st, out, gss, ?_, e2, ?_⟩
    · rw [passEncode, passSamples_run _ _ _ _ hf l hl]
      rw [List.flatMap_cons, List.flatMap_nil, List.append_nil] at e1
      rw [← e1]
      simp only [FamilyIn.calls, fam, List.nil_append, List.map_map]
      rfl
    · have : ((l.map fun q => (q.1, sumUp apply zero q.2)).flatMap fun q => shown n.text (labels q.1) q.2) =
          (l.map fun q => (labels q.1, view (conc (sumUp apply zero q.2)))).flatMap fun s => expected n.text s.1 s.2 := by
        rw [List.flatMap_map, List.flatMap_map]
        apply List.flatMap_congr
        intro q hq
        exact ((hfit q hq).2.2).symm
      rw [this]
      exact r4

end text

section sparse
variable {K C M A : Type} [DecidableEq K]

theorem mem_mapOf_update {tr : List (SEvent K C)} {k : K} {us : List C} (h : mapOf tr k = some us) {c : C} (hc : c ∈ us) :
    ∃ t, .update t k c ∈ tr := by
  induction tr using List.reverseRecOn generalizing us with
  | nil => cases h
  | append_singleton tr e ih =>
    rw [mapOf_snoc] at h
    have old : ∀ us', mapOf tr k = some us' → c ∈ us' → ∃ t, SEvent.update t k c ∈ tr ++ [e] := fun us' h' hc' => by
      obtain ⟨t, ht⟩ := ih h' hc'
      exact ⟨t, List.mem_append_left _ ht⟩
    cases e with
    | insert t k' =>
      simp only [mapAfter] at h
      split at h
      · cases h; cases hc
      · exact old us h hc
    | update t k' u =>
      simp only [mapAfter] at h
      split at h
      · rename_i hk
        subst hk
        cases hm : mapOf tr k with
        | none => rw [hm] at h; cases h
        | some us' =>
          rw [hm] at h
          cases h
          rcases List.mem_append.1 hc with hc | hc
          · exact old us' hm hc
          · rw [List.mem_singleton.1 hc]
            exact ⟨t, by simp⟩
      · exact old us h hc
    | remove t k' r =>
      simp only [mapAfter] at h
      split at h
      · cases h
      · exact old us h hc
    | _ => exact old us h hc

theorem sparse_pass_text {o : MetricOps C M} {okC : C → Prop} {conc : A → M} {zero : A} {apply : C → A → A}
    (hf : Follows o okC conc zero apply) {c : ShardConf K} (hc : ∀ k, c.shardOf k < c.n)
    {tr₁ tr₂ tr₃ : List (SEvent K C)} {t : Tid} {acc : List (K × List C)} {s : SSys K C}
    (h : Exec (SStep c) SSys.new (tr₁ ++ .startPass t :: tr₂ ++ .endPass t acc :: tr₃) s) (hone : .startPass t ∉ tr₂)
    (hok : ∀ v k x, .update v k x ∈ tr₁ ++ tr₂ → okC x)
    {ryu : F64 → Bytes} {rf : Bytes → Option F64} (F : FloatText ryu rf) (m : Mode) (n : Name) (hn : MetricNameRe n.text)
    (labels : K → Labels) (kind : Kind) (view : M → Metric) (shown : Bytes → Labels → A → List Expected)
    (hk : ∀ x, (view x).kind = kind)
    (hfit : ∀ p k us, p <+: tr₂ → mapOf (tr₁ ++ .startPass t :: p) k = some us → LabelsOk (labels k) ∧
      Fits (view (conc (sumUp apply zero us))) ∧ expected n.text (labels k) (view (conc (sumUp apply zero us))) =
        shown n.text (labels k) (sumUp apply zero us)) :
    ∃ st out, passEncode (textEncoder m ryu) n kind labels view o (emitted t tr₂) (TextEnc.new []) =
        (.ok (), ⟨st, out⟩) ∧
      PassShows rf n.text kind labels shown (SparseWas t tr₁ tr₂ zero apply) (SparseThere t tr₁ tr₂) out := by
  obtain ⟨p1, p2, p3⟩ := C24_pass hc h hone
  obtain ⟨st, out, ss, e1, e2, e3⟩ := pass_text hf (emitted t tr₂) (by
    rintro ⟨k, us⟩ hq x hx
    obtain ⟨p, hp, hm⟩ := p2 k us hq
    obtain ⟨v, hv⟩ := mem_mapOf_update hm hx
    refine hok v k x ?_
    simp only [List.mem_append, List.mem_cons, reduceCtorEq, false_or] at hv ⊢
    exact hv.imp id fun hv => hp.subset hv) F m n hn labels kind view shown hk (by
    rintro ⟨k, us⟩ hq
    obtain ⟨p, hp, hm⟩ := p2 k us hq
    exact hfit p k us hp hm)
  refine ⟨st, out, e1, _, ss, ?_, ?_, ?_, e2, e3⟩
  · rw [List.map_map]; exact p1
  · rintro ⟨k, a⟩ hq
    obtain ⟨⟨k', us⟩, hq', e⟩ := List.mem_map.1 hq
    cases e
    obtain ⟨p, hp, hm⟩ := p2 k' us hq'
    exact ⟨p, us, hp, hm, rfl⟩
  · intro k hk
    obtain ⟨us, hus⟩ := p3 k hk
    rw [List.map_map]
    exact List.mem_map.2 ⟨_, hus, rfl⟩

end sparse

section dense
variable {C M A : Type}

theorem denseEmitted_append (t : Tid) (a b : List (DEvent C)) :
    denseEmitted t (a ++ b) = denseEmitted t a ++ denseEmitted t b := by
  induction a with
  | nil => rfl
  | cons e a ih =>
    cases e <;> simp only [List.cons_append, denseEmitted, ih]
    split <;> rfl

theorem mem_denseEmitted {t : Tid} {tr : List (DEvent C)} {i : Nat} {us : List C} (h : (i, us) ∈ denseEmitted t tr) :
    .emit t i us ∈ tr := by
  induction tr with
  | nil => cases h
  | cons e tr ih =>
    cases e with
    | emit u j vs =>
      simp only [denseEmitted] at h
      split at h
      · rename_i hu
        subst hu
        rcases List.mem_cons.1 h with h | h
        · cases h; simp
        · exact List.mem_cons_of_mem _ (ih h)
      · exact List.mem_cons_of_mem _ (ih h)
    | _ => exact List.mem_cons_of_mem _ (ih h)

theorem mem_denseUpdates {tr : List (DEvent C)} {i : Nat} {c : C} (h : c ∈ denseUpdates i tr) :
    ∃ t o, .update t i o c ∈ tr := by
  induction tr with
  | nil => cases h
  | cons e tr ih =>
    cases e with
    | update t j o u =>
      simp only [denseUpdates] at h
      split at h
      · rename_i hu
        subst hu
        rcases List.mem_cons.1 h with h | h
        · subst h; exact ⟨t, o, by simp⟩
        · obtain ⟨t, o, h⟩ := ih h; exact ⟨t, o, List.mem_cons_of_mem _ h⟩
      · obtain ⟨t, o, h⟩ := ih h; exact ⟨t, o, List.mem_cons_of_mem _ h⟩
    | _ => obtain ⟨t, o, h⟩ := ih h; exact ⟨t, o, List.mem_cons_of_mem _ h⟩

theorem Spec.Informed.append {s t : Tid} {a : List (DEvent C)} (h : Informed s t a) (b : List (DEvent C)) :
    Informed s t (a ++ b) := by
  induction b using List.reverseRecOn with
  | nil => simpa using h
  | append_singleton b e ih => rw [← List.append_assoc]; exact .keep ih

/-- In the middle of a pass: the cells before `i` have been written, in order, or skipped. -/
structure DPassInv (t : Tid) (seg : List (DEvent C)) (i : Nat) : Prop where
  sorted : ((denseEmitted t seg).map Prod.fst).Pairwise (· < ·)
  below : ∀ q ∈ denseEmitted t seg, q.1 < i
  all : ∀ j < i, j ∈ (denseEmitted t seg).map Prod.fst ∨ .skip t j ∈ seg

theorem dpass_inv {n : Nat} {tr : List (DEvent C)} {s : DSys C} (h : Exec (DStep n) DSys.new tr s) (t : Tid)
    (pre seg : List (DEvent C)) (htr : tr = pre ++ .startPass t :: seg) (hno : .startPass t ∉ seg) (i : Nat)
    (hp : s.pc t = .pass i) : DPassInv t seg i := by
  induction h generalizing pre seg i with
  | nil => simp at htr
  | @snoc tr s e s' hex hs ih =>
    have hgo : ∀ (s : DSys C) (u : Tid) (p : DPc), (s.goto u p).pc t = if t = u then p else s.pc t :=
      fun s u p => by rw [goto_pc]
    rcases List.eq_nil_or_concat seg with rfl | ⟨seg', e', rfl⟩
    · obtain ⟨h1, h2⟩ := List.append_inj' htr rfl
      simp only [List.cons.injEq, and_true] at h2
      subst h2
      cases hs with
      | startPass _ hp' =>
        rw [hgo, if_pos rfl] at hp
        cases hp
        exact ⟨List.Pairwise.nil, (by intro q hq; cases hq), fun j hj => absurd hj (Nat.not_lt_zero _)⟩
    · rw [List.concat_eq_append] at htr hno ⊢
      have htr' : tr ++ [e] = (pre ++ .startPass t :: seg') ++ [e'] := by rw [htr]; simp
      obtain ⟨h1, h2⟩ := List.append_inj' htr' rfl
      simp only [List.cons.injEq, and_true] at h2
      subst h2
      have hno' : DEvent.startPass t ∉ seg' := fun hm => hno (List.mem_append_left _ hm)
      have hne : e ≠ .startPass t := fun he => hno (by rw [he]; simp)
      have keep : s.pc t = .pass i → denseEmitted t [e] = [] → DPassInv t (seg' ++ [e]) i := by
        intro hp' he
        obtain ⟨a, b, c⟩ := ih pre seg' h1 hno' i hp'
        have : denseEmitted t (seg' ++ [e]) = denseEmitted t seg' := by rw [denseEmitted_append, he, List.append_nil]
        refine ⟨this ▸ a, this ▸ b, fun j hj => ?_⟩
        rw [this]
        exact (c j hj).imp id fun hm => List.mem_append_left _ hm
      cases hs with
      | sync _ _ => exact keep hp rfl
      | update _ _ _ _ _ => exact keep hp rfl
      | skip u j hu hj hk =>
        rw [hgo] at hp
        split at hp
        · rename_i ht
          subst ht
          cases hp
          obtain ⟨a, b, c⟩ := ih pre seg' h1 hno' j hu
          have : denseEmitted t (seg' ++ [.skip t j]) = denseEmitted t seg' := by
            rw [denseEmitted_append]; simp [denseEmitted]
          refine ⟨this ▸ a, fun q hq => ?_, fun k hk' => ?_⟩
          · rw [this] at hq; exact Nat.lt_succ_of_lt (b q hq)
          · rw [this]
            rcases Nat.lt_succ_iff_lt_or_eq.1 hk' with hk' | rfl
            · exact (c k hk').imp id fun hm => List.mem_append_left _ hm
            · right; simp
        · exact keep hp rfl
      | emit u j o us hu hj hcell hpre hkn =>
        change (DSys.goto _ u _).pc t = _ at hp
        rw [hgo] at hp
        split at hp
        · rename_i ht
          subst ht
          cases hp
          obtain ⟨a, b, c⟩ := ih pre seg' h1 hno' j hu
          have : denseEmitted t (seg' ++ [.emit t j us]) = denseEmitted t seg' ++ [(j, us)] := by
            rw [denseEmitted_append]; simp [denseEmitted]
          refine ⟨?_, fun q hq => ?_, fun k hk' => ?_⟩
          · rw [this, List.map_append, List.pairwise_append]
            refine ⟨a, by simp, fun x hx y hy => ?_⟩
            obtain ⟨q, hq, rfl⟩ := List.mem_map.1 hx
            rw [List.map_singleton, List.mem_singleton] at hy
            subst hy
            exact b q hq
          · rw [this] at hq
            rcases List.mem_append.1 hq with hq | hq
            · exact Nat.lt_succ_of_lt (b q hq)
            · rw [List.mem_singleton.1 hq]; exact Nat.lt_succ_self _
          · rw [this]
            rcases Nat.lt_succ_iff_lt_or_eq.1 hk' with hk' | rfl
            · refine (c k hk').imp (fun hm => ?_) fun hm => List.mem_append_left _ hm
              rw [List.map_append]; exact List.mem_append_left _ hm
            · left; simp
        · rename_i ht
          exact keep hp (by simp [denseEmitted, Ne.symm ht])
      | startPass u _ =>
        rw [hgo] at hp
        split at hp
        · rename_i ht
          subst ht
          exact absurd rfl hne
        · exact keep hp rfl
      | _ u =>
        change (DSys.goto _ u _).pc t = _ at hp
        rw [hgo] at hp
        split at hp
        · cases hp
        · exact keep hp rfl

/-- Labels in use have indices in range. -/
theorem dpc_lt {n : Nat} {tr : List (DEvent C)} {s : DSys C} (h : Exec (DStep n) DSys.new tr s) :
    (∀ t i, s.pc t = .check i ∨ s.pc t = .slow i ∨ s.pc t = .init i ∨ (∃ o, s.pc t = .got i o) → i < n) ∧
      ∀ t i o, .acquired t i o ∈ tr → i < n := by
  induction h with
  | nil => exact ⟨fun t i h => (by rcases h with h | h | h | ⟨o, h⟩ <;> cases h), fun t i o h => (by cases h)⟩
  | @snoc tr s e s' _ hs ih =>
    obtain ⟨ih1, ih2⟩ := ih
    have go : ∀ (s₁ : DSys C) (u : Tid) (p : DPc), s₁.pc = s.pc →
        (∀ i, p = .check i ∨ p = .slow i ∨ p = .init i ∨ (∃ o, p = .got i o) → i < n) →
        ∀ t i, (s₁.goto u p).pc t = .check i ∨ (s₁.goto u p).pc t = .slow i ∨ (s₁.goto u p).pc t = .init i ∨
          (∃ o, (s₁.goto u p).pc t = .got i o) → i < n := by
      intro s₁ u p hs₁ hp t i h
      rw [goto_pc] at h
      split at h
      · exact hp i h
      · rw [hs₁] at h; exact ih1 t i h
    have old : (∀ t i o, e ≠ .acquired t i o) → ∀ t i o, DEvent.acquired t i o ∈ tr ++ [e] → i < n := by
      intro hne t i o hm
      rcases List.mem_append.1 hm with hm | hm
      · exact ih2 t i o hm
      · exact absurd (List.mem_singleton.1 hm).symm (hne t i o)
    have new : ∀ u j p, e = .acquired u j p → j < n → ∀ t i o, DEvent.acquired t i o ∈ tr ++ [e] → i < n := by
      rintro u j p rfl hj t i o hm
      rcases List.mem_append.1 hm with hm | hm
      · exact ih2 t i o hm
      · cases List.mem_singleton.1 hm; exact hj
    cases hs with
    | startGet t i h hi => exact ⟨go _ _ _ rfl (by rintro j (h | h | h | ⟨o, h⟩) <;> cases h; exact hi), old (by simp)⟩
    | fast t i o h hc => exact ⟨go _ _ _ rfl (by rintro j (h | h | h | ⟨o, h⟩) <;> cases h), new _ _ _ rfl (ih1 t i (.inl h))⟩
    | fastMiss t i h hk =>
      exact ⟨go _ _ _ rfl (by rintro j (h' | h' | h' | ⟨o, h'⟩) <;> cases h'; exact ih1 t i (.inl h)), old (by simp)⟩
    | slowRun t i h hc =>
      exact ⟨go _ _ _ rfl (by rintro j (h' | h' | h' | ⟨o, h'⟩) <;> cases h'; exact ih1 t i (.inr (.inl h))), old (by simp)⟩
    | slowDone t i o h hc =>
      exact ⟨go _ _ _ rfl (by rintro j (h | h | h | ⟨o, h⟩) <;> cases h), new _ _ _ rfl (ih1 t i (.inr (.inl h)))⟩
    | create t i h =>
      exact ⟨go _ _ _ rfl (by rintro j (h' | h' | h' | ⟨o, h'⟩) <;> cases h'; exact ih1 t i (.inr (.inr (.inl h)))),
        old (by simp)⟩
    | created t i o h =>
      exact ⟨go _ _ _ rfl (by rintro j (h | h | h | ⟨o, h⟩) <;> cases h),
        new _ _ _ rfl (ih1 t i (.inr (.inr (.inr ⟨o, h⟩))))⟩
    | update _ _ _ _ _ => exact ⟨ih1, old (by simp)⟩
    | sync _ _ => exact ⟨ih1, old (by simp)⟩
    | _ => exact ⟨go _ _ _ rfl (by rintro j (h | h | h | ⟨o, h⟩) <;> cases h), old (by simp)⟩

/-- A finished pass over a dense vector: in ascending order, only what was there, and nothing left out that the thread
knew of. -/
theorem dense_pass {n : Nat} {tr₁ tr₂ tr₃ : List (DEvent C)} {t : Tid} {s : DSys C}
    (h : Exec (DStep n) DSys.new (tr₁ ++ .startPass t :: tr₂ ++ .endPass t :: tr₃) s) (hone : .startPass t ∉ tr₂) :
    ((denseEmitted t tr₂).map Prod.fst).Pairwise (· < ·) ∧
      (∀ i us, (i, us) ∈ denseEmitted t tr₂ → us <+: denseUpdates i (tr₁ ++ .startPass t :: tr₂) ∧
        ∀ x y v o u, tr₁ = x ++ .update v i o u :: y → Informed v t y → denseUpdates i x ++ [u] <+: us) ∧
      ∀ i, DenseThere t tr₁ i → i ∈ (denseEmitted t tr₂).map Prod.fst := by
  obtain ⟨s₁, h1, h2⟩ := exec_split (tr₁ ++ .startPass t :: tr₂) _ h
  obtain ⟨s₂, hs, _⟩ := exec_cons_inv h2
  cases hs with
  | endPass _ k hp hk =>
    have hi := dpass_inv h1 t tr₁ tr₂ rfl hone k hp
    refine ⟨hi.sorted, fun i us hm => ?_, fun i hth => ?_⟩
    · obtain ⟨a, b, rfl⟩ := List.append_of_mem (mem_denseEmitted hm)
      have h1' : Exec (DStep n) DSys.new ((tr₁ ++ .startPass t :: a) ++ .emit t i us :: b) s₁ := by simpa using h1
      obtain ⟨q1, q2⟩ := C47_emit h1'
      refine ⟨?_, fun x y v o u hx hinf => ?_⟩
      · have : tr₁ ++ DEvent.startPass t :: (a ++ .emit t i us :: b) =
            (tr₁ ++ .startPass t :: a) ++ .emit t i us :: b := by simp
        rw [this, denseUpdates_append]
        exact q1.trans (List.prefix_append _ _)
      · subst hx
        exact q2 x (y ++ .startPass t :: a) v o u (by simp) (hinf.append _)
    · obtain ⟨x, y, v, o, rfl, hinf⟩ := hth
      have hin : i < n := (dpc_lt h1).2 v i o (by simp)
      refine (hi.all i (Nat.lt_of_lt_of_le hin hk)).resolve_right fun hm => ?_
      obtain ⟨a, b, rfl⟩ := List.append_of_mem hm
      have h1' : Exec (DStep n) DSys.new ((x ++ .acquired v i o :: y ++ .startPass t :: a) ++ .skip t i :: b) s₁ := by
        simpa using h1
      exact C47_skip h1' x (y ++ .startPass t :: a) v o (by simp) (hinf.append _)

theorem dense_pass_text {o : MetricOps C M} {okC : C → Prop} {conc : A → M} {zero : A} {apply : C → A → A}
    (hf : Follows o okC conc zero apply) {cells : Nat} {tr₁ tr₂ tr₃ : List (DEvent C)} {t : Tid} {s : DSys C}
    (h : Exec (DStep cells) DSys.new (tr₁ ++ .startPass t :: tr₂ ++ .endPass t :: tr₃) s) (hone : .startPass t ∉ tr₂)
    (hok : ∀ v i o x, .update v i o x ∈ tr₁ ++ tr₂ → okC x)
    {ryu : F64 → Bytes} {rf : Bytes → Option F64} (F : FloatText ryu rf) (m : Mode) (n : Name) (hn : MetricNameRe n.text)
    (labels : Nat → Labels) (kind : Kind) (view : M → Metric) (shown : Bytes → Labels → A → List Expected)
    (hk : ∀ x, (view x).kind = kind)
    (hfit : ∀ i us, us <+: denseUpdates i (tr₁ ++ .startPass t :: tr₂) → LabelsOk (labels i) ∧
      Fits (view (conc (sumUp apply zero us))) ∧ expected n.text (labels i) (view (conc (sumUp apply zero us))) =
        shown n.text (labels i) (sumUp apply zero us)) :
    ∃ st out, passEncode (textEncoder m ryu) n kind labels view o (denseEmitted t tr₂) (TextEnc.new []) =
        (.ok (), ⟨st, out⟩) ∧
      PassShows rf n.text kind labels shown (DenseWas t tr₁ tr₂ zero apply) (DenseThere t tr₁) out := by
  obtain ⟨p1, p2, p3⟩ := dense_pass h hone
  obtain ⟨st, out, ss, e1, e2, e3⟩ := pass_text hf (denseEmitted t tr₂) (by
    rintro ⟨i, us⟩ hq x hx
    obtain ⟨v, o', hv⟩ := mem_denseUpdates ((p2 i us hq).1.subset hx)
    refine hok v i o' x ?_
    simpa using hv) F m n hn labels kind view shown hk (by
    rintro ⟨i, us⟩ hq
    exact hfit i us (p2 i us hq).1)
  refine ⟨st, out, e1, _, ss, ?_, ?_, ?_, e2, e3⟩
  · rw [List.map_map]; exact p1.imp fun h => Nat.ne_of_lt h
  · rintro ⟨i, a⟩ hq
    obtain ⟨⟨i', us⟩, hq', e⟩ := List.mem_map.1 hq
    cases e
    obtain ⟨q1, q2⟩ := p2 i' us hq'
    exact ⟨us, q1, q2, rfl⟩
  · intro i hi
    rw [List.map_map]
    exact p3 i hi

end dense

/-! ## The kinds of metrics -/

/-- No NaN gets into a histogram. -/
theorem sumUp_noNaN {us : List HistCall} (h : ∀ x ∈ us, (HistCall.value x).isNaN = false) :
    ∀ x ∈ sumUp HistCall.apply [] us, x.isNaN = false := by
  have : ∀ (us : List HistCall) (xs : List F64), us.foldl (fun a c => HistCall.apply c a) xs = xs ++ us.map HistCall.value := by
    intro us
    induction us with
    | nil => intro xs; simp
    | cons c us ih => intro xs; rw [List.foldl_cons, ih]; simp [HistCall.apply]
  intro x hx
  rw [sumUp, this, List.nil_append] at hx
  obtain ⟨y, hy, rfl⟩ := List.mem_map.1 hx
  exact h y hy

section kinds
variable {K : Type} [DecidableEq K] {c : ShardConf K} (hc : ∀ k, c.shardOf k < c.n)
variable {ryu : F64 → Bytes} {rf : Bytes → Option F64} (F : FloatText ryu rf) (m : Mode)
variable (n : Name) (hn : MetricNameRe n.text) (labels : K → Labels) (dlabels : Nat → Labels)
include F hn

section
include hc

/-- C68, counters in a sparse vector. Any number of threads look up, update, remove and collect in any order. What a
thread writes in a pass reads back as one counter family: no label group twice, each with the exact total of its
increments at some moment of the pass, and no group left out that was there during the whole pass. -/
theorem C68_counter (m' : Mode) {tr₁ tr₂ tr₃ : List (SEvent K CounterCall)} {t : Tid} {acc : List (K × List CounterCall)}
    {s : SSys K CounterCall}
    (h : Exec (SStep c) SSys.new (tr₁ ++ .startPass t :: tr₂ ++ .endPass t acc :: tr₃) s) (hone : .startPass t ∉ tr₂)
    (hok : ∀ v k x, .update v k x ∈ tr₁ ++ tr₂ → CounterCall.Ok x)
    (hfit : ∀ p k us, p <+: tr₂ → mapOf (tr₁ ++ .startPass t :: p) k = some us →
      (∀ l ∈ labels k, LabelNameRe l.1) ∧ sumUp CounterCall.apply 0 us < 2 ^ 63) :
    ∃ st out, passEncode (textEncoder m ryu) n .counter labels .counter (counterOps m') (emitted t tr₂)
        (TextEnc.new []) = (.ok (), ⟨st, out⟩) ∧
      PassShows rf n.text .counter labels shownCounter (SparseWas t tr₁ tr₂ 0 CounterCall.apply)
        (SparseThere t tr₁ tr₂) out := by
  refine sparse_pass_text (counter_follows m') hc h hone hok F m n hn labels .counter .counter shownCounter
    (fun _ => rfl) fun p k us hp hm => ?_
  obtain ⟨h1, h2⟩ := hfit p k us hp hm
  have : sumUp CounterCall.apply 0 us % 2 ^ 64 = sumUp CounterCall.apply 0 us := Nat.mod_eq_of_lt (by omega)
  exact ⟨h1, by simp only [this]; exact h2, by simp only [this]; rfl⟩

/-- C68, gauges in a sparse vector: the same with the exact integer, if it is an `i64`. -/
theorem C68_gauge (m' : Mode) {tr₁ tr₂ tr₃ : List (SEvent K GaugeCall)} {t : Tid} {acc : List (K × List GaugeCall)}
    {s : SSys K GaugeCall}
    (h : Exec (SStep c) SSys.new (tr₁ ++ .startPass t :: tr₂ ++ .endPass t acc :: tr₃) s) (hone : .startPass t ∉ tr₂)
    (hok : ∀ v k x, .update v k x ∈ tr₁ ++ tr₂ → GaugeCall.Ok x)
    (hfit : ∀ p k us, p <+: tr₂ → mapOf (tr₁ ++ .startPass t :: p) k = some us →
      (∀ l ∈ labels k, LabelNameRe l.1) ∧ InI64 (sumUp GaugeCall.apply 0 us)) :
    ∃ st out, passEncode (textEncoder m ryu) n .gauge labels .gauge (gaugeOps m') (emitted t tr₂)
        (TextEnc.new []) = (.ok (), ⟨st, out⟩) ∧
      PassShows rf n.text .gauge labels shownGauge (SparseWas t tr₁ tr₂ 0 GaugeCall.apply)
        (SparseThere t tr₁ tr₂) out := by
  refine sparse_pass_text (gauge_follows m') hc h hone hok F m n hn labels .gauge .gauge shownGauge
    (fun _ => rfl) fun p k us hp hm => ?_
  obtain ⟨h1, h2⟩ := hfit p k us hp hm
  exact ⟨h1, trivial, by rw [asI64Wrap_eq h2]; rfl⟩

/-- C68, float gauges in a sparse vector: the `f64` result of the calls in the order in which they took effect. -/
theorem C68_float {tr₁ tr₂ tr₃ : List (SEvent K FloatCall)} {t : Tid} {acc : List (K × List FloatCall)}
    {s : SSys K FloatCall}
    (h : Exec (SStep c) SSys.new (tr₁ ++ .startPass t :: tr₂ ++ .endPass t acc :: tr₃) s) (hone : .startPass t ∉ tr₂)
    (hfit : ∀ k, ∀ l ∈ labels k, LabelNameRe l.1) :
    ∃ st out, passEncode (textEncoder m ryu) n .floatGauge labels .floatGauge floatOps (emitted t tr₂)
        (TextEnc.new []) = (.ok (), ⟨st, out⟩) ∧
      PassShows rf n.text .floatGauge labels shownFloat (SparseWas t tr₁ tr₂ F64.pzero FloatCall.apply)
        (SparseThere t tr₁ tr₂) out :=
  sparse_pass_text float_follows hc h hone (fun _ _ _ _ => trivial) F m n hn labels .floatGauge .floatGauge shownFloat
    (fun _ => rfl) fun _ k _ _ _ => ⟨hfit k, trivial, rfl⟩

/-- C68, histograms in a sparse vector: every label group shows, for each bound, how many of the observations made until
some moment of the pass were at or below it, with their number and sum. -/
theorem C68_histogram {les : List F64} (hle : NonDecreasing les) (hnan : ∀ b ∈ les, b.isNaN = false)
    {tr₁ tr₂ tr₃ : List (SEvent K HistCall)} {t : Tid} {acc : List (K × List HistCall)} {s : SSys K HistCall}
    (h : Exec (SStep c) SSys.new (tr₁ ++ .startPass t :: tr₂ ++ .endPass t acc :: tr₃) s) (hone : .startPass t ∉ tr₂)
    (hok : ∀ v k x, .update v k x ∈ tr₁ ++ tr₂ → (HistCall.value x).isNaN = false)
    (hfit : ∀ p k us, p <+: tr₂ → mapOf (tr₁ ++ .startPass t :: p) k = some us →
      (∀ l ∈ labels k, LabelNameRe l.1) ∧ (sumUp HistCall.apply [] us).length < 2 ^ 63) :
    ∃ st out, passEncode (textEncoder m ryu) n .histogram labels (.histogram les) (histOps les) (emitted t tr₂)
        (TextEnc.new []) = (.ok (), ⟨st, out⟩) ∧
      PassShows rf n.text .histogram labels (shownHistogram les) (SparseWas t tr₁ tr₂ [] HistCall.apply)
        (SparseThere t tr₁ tr₂) out := by
  refine sparse_pass_text (hist_follows les) hc h hone (fun _ _ _ _ => trivial) F m n hn labels .histogram
    (.histogram les) (shownHistogram les) (fun _ => rfl) fun p k us hp hm => ?_
  obtain ⟨h1, h2⟩ := hfit p k us hp hm
  refine ⟨h1, histConc_shown hle hnan (sumUp_noNaN fun x hx => ?_) h2 n.text (labels k)⟩
  obtain ⟨v, hv⟩ := mem_mapOf_update hm hx
  refine hok v k x ?_
  simp only [List.mem_append, List.mem_cons, reduceCtorEq, false_or] at hv ⊢
  exact hv.imp id fun hv => hp.subset hv

end

/-- C68, counters in a dense vector: no label group twice, each with a total that counts its first so many increments
and at least those that the collecting thread knew of when it began, and no group left out that it knew to be in use. -/
theorem C68_counter_dense (m' : Mode) {cells : Nat} {tr₁ tr₂ tr₃ : List (DEvent CounterCall)} {t : Tid}
    {s : DSys CounterCall}
    (h : Exec (DStep cells) DSys.new (tr₁ ++ .startPass t :: tr₂ ++ .endPass t :: tr₃) s) (hone : .startPass t ∉ tr₂)
    (hok : ∀ v i o x, .update v i o x ∈ tr₁ ++ tr₂ → CounterCall.Ok x) (hlab : ∀ i, ∀ l ∈ dlabels i, LabelNameRe l.1)
    (hfit : ∀ i us, us <+: denseUpdates i (tr₁ ++ .startPass t :: tr₂) → sumUp CounterCall.apply 0 us < 2 ^ 63) :
    ∃ st out, passEncode (textEncoder m ryu) n .counter dlabels .counter (counterOps m') (denseEmitted t tr₂)
        (TextEnc.new []) = (.ok (), ⟨st, out⟩) ∧
      PassShows rf n.text .counter dlabels shownCounter (DenseWas t tr₁ tr₂ 0 CounterCall.apply)
        (DenseThere t tr₁) out := by
  refine dense_pass_text (counter_follows m') h hone hok F m n hn dlabels .counter .counter shownCounter
    (fun _ => rfl) fun i us hp => ?_
  have h2 := hfit i us hp
  have : sumUp CounterCall.apply 0 us % 2 ^ 64 = sumUp CounterCall.apply 0 us := Nat.mod_eq_of_lt (by omega)
  exact ⟨hlab i, by simp only [this]; exact h2, by simp only [this]; rfl⟩

/-- C68, gauges in a dense vector. -/
theorem C68_gauge_dense (m' : Mode) {cells : Nat} {tr₁ tr₂ tr₃ : List (DEvent GaugeCall)} {t : Tid} {s : DSys GaugeCall}
    (h : Exec (DStep cells) DSys.new (tr₁ ++ .startPass t :: tr₂ ++ .endPass t :: tr₃) s) (hone : .startPass t ∉ tr₂)
    (hok : ∀ v i o x, .update v i o x ∈ tr₁ ++ tr₂ → GaugeCall.Ok x) (hlab : ∀ i, ∀ l ∈ dlabels i, LabelNameRe l.1)
    (hfit : ∀ i us, us <+: denseUpdates i (tr₁ ++ .startPass t :: tr₂) → InI64 (sumUp GaugeCall.apply 0 us)) :
    ∃ st out, passEncode (textEncoder m ryu) n .gauge dlabels .gauge (gaugeOps m') (denseEmitted t tr₂)
        (TextEnc.new []) = (.ok (), ⟨st, out⟩) ∧
      PassShows rf n.text .gauge dlabels shownGauge (DenseWas t tr₁ tr₂ 0 GaugeCall.apply) (DenseThere t tr₁) out :=
  dense_pass_text (gauge_follows m') h hone hok F m n hn dlabels .gauge .gauge shownGauge
    (fun _ => rfl) fun i us hp => ⟨hlab i, trivial, by rw [asI64Wrap_eq (hfit i us hp)]; rfl⟩

/-- C68, float gauges in a dense vector. -/
theorem C68_float_dense {cells : Nat} {tr₁ tr₂ tr₃ : List (DEvent FloatCall)} {t : Tid} {s : DSys FloatCall}
    (h : Exec (DStep cells) DSys.new (tr₁ ++ .startPass t :: tr₂ ++ .endPass t :: tr₃) s) (hone : .startPass t ∉ tr₂)
    (hlab : ∀ i, ∀ l ∈ dlabels i, LabelNameRe l.1) :
    ∃ st out, passEncode (textEncoder m ryu) n .floatGauge dlabels .floatGauge floatOps (denseEmitted t tr₂)
        (TextEnc.new []) = (.ok (), ⟨st, out⟩) ∧
      PassShows rf n.text .floatGauge dlabels shownFloat (DenseWas t tr₁ tr₂ F64.pzero FloatCall.apply)
        (DenseThere t tr₁) out :=
  dense_pass_text float_follows h hone (fun _ _ _ _ _ => trivial) F m n hn dlabels .floatGauge .floatGauge shownFloat
    (fun _ => rfl) fun i _ _ => ⟨hlab i, trivial, rfl⟩

/-- C68, histograms in a dense vector. -/
theorem C68_histogram_dense {les : List F64} (hle : NonDecreasing les) (hnan : ∀ b ∈ les, b.isNaN = false)
    {cells : Nat} {tr₁ tr₂ tr₃ : List (DEvent HistCall)} {t : Tid} {s : DSys HistCall}
    (h : Exec (DStep cells) DSys.new (tr₁ ++ .startPass t :: tr₂ ++ .endPass t :: tr₃) s) (hone : .startPass t ∉ tr₂)
    (hok : ∀ v i o x, .update v i o x ∈ tr₁ ++ tr₂ → (HistCall.value x).isNaN = false)
    (hlab : ∀ i, ∀ l ∈ dlabels i, LabelNameRe l.1)
    (hfit : ∀ i us, us <+: denseUpdates i (tr₁ ++ .startPass t :: tr₂) →
      (sumUp HistCall.apply [] us).length < 2 ^ 63) :
    ∃ st out, passEncode (textEncoder m ryu) n .histogram dlabels (.histogram les) (histOps les) (denseEmitted t tr₂)
        (TextEnc.new []) = (.ok (), ⟨st, out⟩) ∧
      PassShows rf n.text .histogram dlabels (shownHistogram les) (DenseWas t tr₁ tr₂ [] HistCall.apply)
        (DenseThere t tr₁) out := by
  refine dense_pass_text (hist_follows les) h hone (fun _ _ _ _ _ => trivial) F m n hn dlabels .histogram
    (.histogram les) (shownHistogram les) (fun _ => rfl) fun i us hp => ?_
  refine ⟨hlab i, histConc_shown hle hnan (sumUp_noNaN fun x hx => ?_) (hfit i us hp) n.text (dlabels i)⟩
  obtain ⟨v, o, hv⟩ := mem_denseUpdates (hp.subset hx)
  exact hok v i o x (by simpa using hv)

end kinds

section quiet
variable {K C A : Type} [DecidableEq K]

/-- C68, quiet passes: if no key is inserted, updated or removed during the pass, the text shows exactly the vector as
it is, every key once. -/
theorem C68_quiet {rf : Bytes → Option F64} {n : Bytes} {kind : Kind} {labels : K → Labels}
    {shown : Bytes → Labels → A → List Expected} {t : Tid} {tr₁ tr₂ : List (SEvent K C)} {zero : A} {apply : C → A → A}
    {out : Bytes}
    (h : PassShows rf n kind labels shown (SparseWas t tr₁ tr₂ zero apply) (SparseThere t tr₁ tr₂) out)
    (hq : ∀ e ∈ tr₂, (∀ v k, e ≠ .insert v k) ∧ (∀ v k u, e ≠ .update v k u) ∧ ∀ v k r, e ≠ .remove v k r) :
    ScrapeShows rf n kind labels shown (fun k => (mapOf tr₁ k).map (sumUp apply zero)) out := by
  have same : ∀ p, p <+: tr₂ → mapOf (tr₁ ++ .startPass t :: p) = mapOf tr₁ := by
    intro p hp
    have hq : ∀ e ∈ p, (∀ v k, e ≠ .insert v k) ∧ (∀ v k u, e ≠ .update v k u) ∧ ∀ v k r, e ≠ .remove v k r :=
      fun e he => hq e (hp.subset he)
    clear hp
    induction p using List.reverseRecOn with
    | nil => rw [mapOf_snoc]; rfl
    | append_singleton p e ih =>
      have : tr₁ ++ SEvent.startPass t :: (p ++ [e]) = (tr₁ ++ .startPass t :: p) ++ [e] := by simp
      rw [this, mapOf_snoc, ih fun e he => hq e (by simp [he])]
      obtain ⟨q1, q2, q3⟩ := hq e (by simp)
      cases e with
      | insert v k => exact absurd rfl (q1 v k)
      | update v k u => exact absurd rfl (q2 v k u)
      | remove v k r => exact absurd rfl (q3 v k r)
      | _ => rfl
  obtain ⟨l, ss, h1, h2, h3, h4, h5⟩ := h
  refine ⟨l, ss, ⟨h1, fun k a => ⟨fun hm => ?_, fun hm => ?_⟩⟩, h4, h5⟩
  · obtain ⟨p, us, hp, e1, e2⟩ := h2 _ hm
    rw [same p hp] at e1
    simp only at e1 e2
    simp [e1, e2]
  · obtain ⟨us, e1, e2⟩ := Option.map_eq_some_iff.1 hm
    have hk := h3 k fun p hp => by rw [same p hp, e1]; simp
    obtain ⟨⟨k', b⟩, hb, rfl⟩ := List.mem_map.1 hk
    obtain ⟨p, us', hp, e3, e4⟩ := h2 _ hb
    rw [same p hp] at e3
    simp only at e1 e3 e4
    rw [e1] at e3
    cases e3
    rw [← e2, ← e4]
    exact hb

theorem sumUp_counter (us : List CounterCall) : sumUp CounterCall.apply 0 us = (us.map CounterCall.amount).sum := by
  have : ∀ (us : List CounterCall) v, us.foldl (fun a c => CounterCall.apply c a) v = v + (us.map CounterCall.amount).sum := by
    intro us
    induction us with
    | nil => intro v; simp
    | cons c us ih => intro v; rw [List.foldl_cons, ih]; simp [CounterCall.apply]; omega
  rw [sumUp, this, Nat.zero_add]

/-- C68, bounds for counters: a key that was there when the pass began and has not been removed shows at least the
increments made before the pass began, and at most those made until its end. -/
theorem C68_bounds {c : ShardConf K} {tr₁ tr₂ tr₃ : List (SEvent K CounterCall)} {t : Tid} {s : SSys K CounterCall}
    (h : Exec (SStep c) SSys.new (tr₁ ++ .startPass t :: tr₂ ++ tr₃) s) {k : K} {us : List CounterCall}
    (hk : mapOf tr₁ k = some us) (hrm : ∀ v r, .remove v k (some r) ∉ tr₂) :
    SparseThere t tr₁ tr₂ k ∧ ∃ us', mapOf (tr₁ ++ .startPass t :: tr₂) k = some us' ∧
      ∀ v, SparseWas t tr₁ tr₂ 0 CounterCall.apply k v →
        (us.map CounterCall.amount).sum ≤ v ∧ v ≤ (us'.map CounterCall.amount).sum := by
  have grow : ∀ p q, p ++ q = tr₂ → ∃ us₁ us', mapOf (tr₁ ++ .startPass t :: p) k = some us₁ ∧ us <+: us₁ ∧
      mapOf (tr₁ ++ .startPass t :: tr₂) k = some us' ∧ us₁ <+: us' := by
    rintro p q rfl
    obtain ⟨s₁, h1, _⟩ := exec_split (tr₁ ++ .startPass t :: (p ++ q)) _ h
    have h1' : Exec (SStep c) SSys.new ((tr₁ ++ .startPass t :: p) ++ q) s₁ := by simpa using h1
    obtain ⟨s₂, h2, _⟩ := exec_split (tr₁ ++ .startPass t :: p) _ h1'
    obtain ⟨us₁, e1, e2⟩ := mapOf_grows h2 hk (by
      intro v r hm
      simp only [List.mem_cons, reduceCtorEq, false_or] at hm
      exact hrm v r (List.mem_append_left _ hm))
    obtain ⟨us', e3, e4⟩ := mapOf_grows h1' e1 fun v r hm => hrm v r (List.mem_append_right _ hm)
    exact ⟨us₁, us', e1, e2, by simpa using e3, e4⟩
  obtain ⟨_, us', e1, _, e3, _⟩ := grow tr₂ [] (by simp)
  refine ⟨?_, us', e3, ?_⟩
  · rintro p ⟨q, hq⟩ hn
    obtain ⟨us₁, _, e, _⟩ := grow p q hq
    rw [hn] at e; cases e
  · rintro v ⟨p, us₂, ⟨q, hq⟩, e4, rfl⟩
    obtain ⟨us₁, us'', e5, ⟨x, rfl⟩, e7, ⟨y, rfl⟩⟩ := grow p q hq
    rw [e4] at e5
    cases e5
    rw [e3] at e7
    cases e7
    rw [sumUp_counter]
    simp only [List.map_append, List.sum_append]
    omega

end quiet

/-! ## A scrape of a sparse and one of a dense vector -/

namespace ConcExample
open SparseExample
variable {U : Type} (x y z : U)

def before : List (SEvent Nat U) :=
  [.startGet 0 1, .lockR 0 1, .silent 0, .silent 0, .lockW 0 1, .insert 0 1, .silent 0, .acquired 0 1,
    .update 0 1 x]

def during : List (SEvent Nat U) :=
  [.lockR 1 0, .silent 1, .lockR 1 1, .update 0 1 y, .update 0 1 z, .emit 1 1 [x, y], .silent 1]

/-- Thread 0 updates metric 1 while thread 1 collects it. -/
theorem run : ∃ s, Exec (SStep conf) SSys.new
    (before x ++ .startPass 1 :: during x y z ++ .endPass 1 [(1, [x, y])] :: []) s := by
  let s0 : SSys Nat U := SSys.new
  let s1 := s0.goto 0 (.getRead 1)
  let s2 := s1.goto 0 (.probe 1)
  let s3 := s2.goto 0 (.missed 1)
  let s4 := s3.goto 0 (.getWrite 1)
  let s5 := s4.goto 0 (.insert 1)
  let s6 := (s5.setShard 1 [(1, [])]).goto 0 (.inserted 1)
  let s7 := s6.goto 0 (.refind 1)
  let s8 := s7.setGuards 0 .idle [1]
  let s9 := s8.setShard 1 [(1, [x])]
  let a0 := s9.goto 1 (.collect 0 [])
  let a1 := a0.goto 1 (.scan 0 0 [] [])
  let a2 := a1.goto 1 (.collect 1 [])
  let a3 := a2.goto 1 (.scan 1 0 [] [(1, [x])])
  let a4 := a3.setShard 1 [(1, [x, y])]
  let a5 := a4.setShard 1 [(1, [x, y, z])]
  let a6 := a5.goto 1 (.scan 1 1 [(1, [x, y])] [(1, [x])])
  let a7 := a6.goto 1 (.collect 2 [(1, [x, y])])
  have w0 : Two s0 := fun _ _ => rfl
  have w1 : Two s1 := w0.goto (by decide) _
  have w4 : Two s4 := ((w1.goto (by decide) _).goto (by decide) _).goto (by decide) _
  have w6 : Two s6 := ((w4.goto (by decide) _).setShard _ _).goto (by decide) _
  have w8 : Two s8 := (w6.goto (by decide) _).setGuards (by decide) _ _
  have v0 : Two a0 := (w8.setShard _ _).goto (by decide) _
  have v2 : Two a2 := (v0.goto (by decide) _).goto (by decide) _
  refine ⟨a7.goto 1 .idle, ?_⟩
  refine exec_cons (m := s1) (.startGet s0 0 1 rfl) ?_
  refine exec_cons (m := s2) (.lockRead s1 0 1 rfl (w1.canRead (of_decide_eq_true rfl) (of_decide_eq_true rfl))) ?_
  refine exec_cons (m := s3) (.miss s2 0 1 rfl rfl) ?_
  refine exec_cons (m := s4) (.missRelease s3 0 1 rfl) ?_
  refine exec_cons (m := s5) (.lockWrite s4 0 1 rfl (w4.canWrite (of_decide_eq_true rfl) (of_decide_eq_true rfl) (of_decide_eq_true rfl) (of_decide_eq_true rfl)
    (of_decide_eq_true rfl) (of_decide_eq_true rfl))) ?_
  refine exec_cons (m := s6) (.insertNew s5 0 1 [(1, [])] rfl rfl (List.Perm.refl _)) ?_
  refine exec_cons (m := s7) (.downgrade s6 0 1 rfl) ?_
  refine exec_cons (m := s8) (.refind s7 0 1 [] rfl rfl) ?_
  refine exec_cons (m := s9) (.update s8 0 1 x [] (of_decide_eq_true rfl) rfl) ?_
  refine exec_cons (m := a0) (.startPass s9 1 rfl) ?_
  refine exec_cons (m := a1) (.passLock a0 1 0 [] rfl (of_decide_eq_true rfl) (v0.canRead (of_decide_eq_true rfl) (of_decide_eq_true rfl))) ?_
  refine exec_cons (m := a2) (.passNext a1 1 0 0 [] [] rfl (of_decide_eq_true rfl)) ?_
  refine exec_cons (m := a3) (.passLock a2 1 1 [] rfl (of_decide_eq_true rfl) (v2.canRead (of_decide_eq_true rfl) (of_decide_eq_true rfl))) ?_
  refine exec_cons (m := a4) (.update a3 0 1 y [x] (of_decide_eq_true rfl) rfl) ?_
  refine exec_cons (m := a5) (.update a4 0 1 z [x, y] (of_decide_eq_true rfl) rfl) ?_
  refine exec_cons (m := a6) (.emit a5 1 1 0 [] [(1, [x])] 1 [x] [x, y] [x, y, z]
    rfl rfl rfl ⟨_, rfl⟩ ⟨_, rfl⟩) ?_
  refine exec_cons (m := a7) (.passNext a6 1 1 1 _ _ rfl (of_decide_eq_true rfl)) ?_
  exact Exec.snoc (tr := []) .nil (.endPass a7 1 2 _ rfl (of_decide_eq_true rfl))


def quiet : List (SEvent Nat U) := [.lockR 1 0, .silent 1, .lockR 1 1, .emit 1 1 [x], .silent 1]

/-- Nobody changes anything while thread 1 collects. -/
theorem qrun : ∃ s, Exec (SStep conf) SSys.new
    (before x ++ .startPass 1 :: quiet x ++ .endPass 1 [(1, [x])] :: []) s := by
  let s0 : SSys Nat U := SSys.new
  let s1 := s0.goto 0 (.getRead 1)
  let s2 := s1.goto 0 (.probe 1)
  let s3 := s2.goto 0 (.missed 1)
  let s4 := s3.goto 0 (.getWrite 1)
  let s5 := s4.goto 0 (.insert 1)
  let s6 := (s5.setShard 1 [(1, [])]).goto 0 (.inserted 1)
  let s7 := s6.goto 0 (.refind 1)
  let s8 := s7.setGuards 0 .idle [1]
  let s9 := s8.setShard 1 [(1, [x])]
  let a0 := s9.goto 1 (.collect 0 [])
  let a1 := a0.goto 1 (.scan 0 0 [] [])
  let a2 := a1.goto 1 (.collect 1 [])
  let a3 := a2.goto 1 (.scan 1 0 [] [(1, [x])])
  let a6 := a3.goto 1 (.scan 1 1 [(1, [x])] [(1, [x])])
  let a7 := a6.goto 1 (.collect 2 [(1, [x])])
  have w0 : Two s0 := fun _ _ => rfl
  have w1 : Two s1 := w0.goto (by decide) _
  have w4 : Two s4 := ((w1.goto (by decide) _).goto (by decide) _).goto (by decide) _
  have w6 : Two s6 := ((w4.goto (by decide) _).setShard _ _).goto (by decide) _
  have w8 : Two s8 := (w6.goto (by decide) _).setGuards (by decide) _ _
  have v0 : Two a0 := (w8.setShard _ _).goto (by decide) _
  have v2 : Two a2 := (v0.goto (by decide) _).goto (by decide) _
  refine ⟨a7.goto 1 .idle, ?_⟩
  refine exec_cons (m := s1) (.startGet s0 0 1 rfl) ?_
  refine exec_cons (m := s2) (.lockRead s1 0 1 rfl (w1.canRead (of_decide_eq_true rfl) (of_decide_eq_true rfl))) ?_
  refine exec_cons (m := s3) (.miss s2 0 1 rfl rfl) ?_
  refine exec_cons (m := s4) (.missRelease s3 0 1 rfl) ?_
  refine exec_cons (m := s5) (.lockWrite s4 0 1 rfl (w4.canWrite (of_decide_eq_true rfl) (of_decide_eq_true rfl) (of_decide_eq_true rfl) (of_decide_eq_true rfl)
    (of_decide_eq_true rfl) (of_decide_eq_true rfl))) ?_
  refine exec_cons (m := s6) (.insertNew s5 0 1 [(1, [])] rfl rfl (List.Perm.refl _)) ?_
  refine exec_cons (m := s7) (.downgrade s6 0 1 rfl) ?_
  refine exec_cons (m := s8) (.refind s7 0 1 [] rfl rfl) ?_
  refine exec_cons (m := s9) (.update s8 0 1 x [] (of_decide_eq_true rfl) rfl) ?_
  refine exec_cons (m := a0) (.startPass s9 1 rfl) ?_
  refine exec_cons (m := a1) (.passLock a0 1 0 [] rfl (of_decide_eq_true rfl) (v0.canRead (of_decide_eq_true rfl) (of_decide_eq_true rfl))) ?_
  refine exec_cons (m := a2) (.passNext a1 1 0 0 [] [] rfl (of_decide_eq_true rfl)) ?_
  refine exec_cons (m := a3) (.passLock a2 1 1 [] rfl (of_decide_eq_true rfl) (v2.canRead (of_decide_eq_true rfl) (of_decide_eq_true rfl))) ?_
  refine exec_cons (m := a6) (.emit a3 1 1 0 [] [(1, [x])] 1 [x] [x] [x]
    rfl rfl rfl ⟨[], rfl⟩ ⟨[], rfl⟩) ?_
  refine exec_cons (m := a7) (.passNext a6 1 1 1 _ _ rfl (of_decide_eq_true rfl)) ?_
  exact Exec.snoc (tr := []) .nil (.endPass a7 1 2 _ rfl (of_decide_eq_true rfl))

theorem during_keys (p : List (SEvent Nat U)) (hp : p <+: during x y z) (k : Nat) (us : List U)
    (h : mapOf (before x ++ .startPass 1 :: p) k = some us) : us <+: [x, y, z] := by
  have hb : ∀ k, mapOf (before x ++ [.startPass 1]) k = if k = 1 then some [x] else none := by
    intro k
    simp only [before, mapOf, List.cons_append, List.nil_append, List.foldl_cons, List.foldl_nil, mapAfter]
    split <;> rfl
  have : before x ++ SEvent.startPass 1 :: p = (before x ++ [.startPass 1]) ++ p := by simp
  rw [this, mapOf, List.foldl_append, ← mapOf] at h
  have hm : mapOf (before x ++ [.startPass 1]) = fun k => if k = 1 then some [x] else none := funext hb
  rw [hm] at h
  have hlist : p ∈ (during x y z).inits := (List.mem_inits _ _).2 hp
  simp only [during, List.inits, List.mem_cons, List.map_cons, List.map_nil, List.not_mem_nil, or_false] at hlist
  rcases hlist with rfl | rfl | rfl | rfl | rfl | rfl | rfl | rfl <;>
    (simp only [List.foldl_cons, List.foldl_nil, mapAfter] at h
     by_cases hk : k = 1
     · simp only [hk, if_true, Option.map_some, Option.some.injEq, List.cons_append, List.nil_append] at h
       subst h
       first | exact ⟨[y, z], rfl⟩ | exact ⟨[z], rfl⟩ | exact ⟨[], rfl⟩
     · simp [hk] at h)

def dbefore : List (DEvent U) :=
  [.startGet 0 1, .silent 0, .silent 0, .init 0 1 0, .acquired 0 1 0, .update 0 1 0 x, .sync 1 0]

def dduring : List (DEvent U) := [.skip 1 0, .update 0 1 0 y, .update 0 1 0 z, .emit 1 1 [x, y]]

/-- The same with a dense vector with two cells. -/
theorem drun : ∃ s, Exec (DStep 2) DSys.new (dbefore x ++ .startPass 1 :: dduring x y z ++ .endPass 1 :: []) s := by
  let s0 : DSys U := DSys.new
  let s1 := s0.goto 0 (.check 1)
  let s2 := s1.goto 0 (.slow 1)
  let s3 := (s2.setCell 1 (.running 0)).goto 0 (.init 1)
  let s4 := (({ s3 with next := 1, objs := Function.update s3.objs 0 [] }.setCell 1 (.done 0)).goto 0
        (.got 1 0)).learn 0 1 0
  let s5 := (s4.goto 0 .idle).hand 0 1 0
  let s6 := { s5 with objs := Function.update s5.objs 0 (s5.objs 0 ++ [x]) }.learn 0 1 1
  let s7 := { s6 with know := Function.update s6.know 1 fun i => joinKnow (s6.know 1 i) (s6.know 0 i) }
  let s8 := s7.goto 1 (.pass 0)
  let s9 := s8.goto 1 (.pass 1)
  let s10 := { s9 with objs := Function.update s9.objs 0 (s9.objs 0 ++ [y]) }.learn 0 1 2
  let s11 := { s10 with objs := Function.update s10.objs 0 (s10.objs 0 ++ [z]) }.learn 0 1 3
  let s12 := (s11.goto 1 (.pass 2)).learn 1 1 2
  refine ⟨s12.goto 1 .idle, ?_⟩
  refine exec_cons (m := s1) (.startGet s0 0 1 rfl (by decide)) ?_
  refine exec_cons (m := s2) (.fastMiss s1 0 1 rfl rfl) ?_
  refine exec_cons (m := s3) (.slowRun s2 0 1 rfl rfl) ?_
  refine exec_cons (m := s4) (.create s3 0 1 rfl) ?_
  refine exec_cons (m := s5) (.created s4 0 1 0 rfl) ?_
  refine exec_cons (m := s6) (.update s5 0 1 0 x (List.mem_singleton.2 rfl)) ?_
  refine exec_cons (m := s7) (.sync s6 1 0) ?_
  refine exec_cons (m := s8) (.startPass s7 1 rfl) ?_
  refine exec_cons (m := s9) (.skip s8 1 0 rfl (by decide) rfl) ?_
  refine exec_cons (m := s10) (.update s9 0 1 0 y (List.mem_singleton.2 rfl)) ?_
  refine exec_cons (m := s11) (.update s10 0 1 0 z (List.mem_singleton.2 rfl)) ?_
  refine exec_cons (m := s12) (.emit s11 1 1 0 [x, y] rfl (by decide) rfl ⟨[z], rfl⟩ ?_) ?_
  · intro k hk
    have : s11.know 1 1 = some 1 := rfl
    rw [this] at hk
    cases hk
    simp
  exact Exec.snoc (tr := []) .nil (.endPass s12 1 2 rfl (by decide))

theorem dduring_updates (i : Nat) (us : List U) (h : us <+: denseUpdates i (dbefore x ++ .startPass 1 :: dduring x y z)) :
    us <+: [x, y, z] := by
  by_cases hi : i = 1
  · subst hi; exact h
  · have hi' : ¬ 1 = i := fun h => hi h.symm
    have : denseUpdates i (dbefore x ++ .startPass 1 :: dduring x y z) = [] := by
      simp [dbefore, dduring, denseUpdates, hi']
    rw [this] at h
    rw [List.prefix_nil.1 h]
    exact List.nil_prefix

theorem hc : ∀ k, conf.shardOf k < conf.n := fun k => Nat.mod_lt _ (by decide)

theorem prefix_three {us : List U} (h : us <+: [x, y, z]) : us = [] ∨ us = [x] ∨ us = [x, y] ∨ us = [x, y, z] := by
  have h := (List.mem_inits _ _).2 h
  simpa [List.inits] using h

def name : Name := .str b!"hits"

theorem name_ok : MetricNameRe name.text :=
  (C38_from_str _).1.1 (by decide)

def idLabel (k : Nat) : Labels := [(b!"id", .int k)]

theorem idLabel_ok (k : Nat) : ∀ l ∈ idLabel k, LabelNameRe l.1 := by
  intro l hl
  rw [List.mem_singleton.1 hl]
  exact (C39_label_name _).1.1 rfl

section
variable {ryu : F64 → Bytes} {rf : Bytes → Option F64} (F : FloatText ryu rf) (m : Mode)
include F

example : ∃ st out, passEncode (textEncoder m ryu) name .counter idLabel .counter (counterOps m)
      (emitted 1 (during (CounterCall.incBy 5) .inc (.incBy 7))) (TextEnc.new []) = (.ok (), ⟨st, out⟩) ∧
    PassShows rf name.text .counter idLabel shownCounter
      (SparseWas 1 (before (CounterCall.incBy 5)) (during (CounterCall.incBy 5) .inc (.incBy 7)) 0 CounterCall.apply)
      (SparseThere 1 (before (CounterCall.incBy 5)) (during (CounterCall.incBy 5) .inc (.incBy 7))) out ∧
    SparseThere 1 (before (CounterCall.incBy 5)) (during (CounterCall.incBy 5) .inc (.incBy 7)) 1 ∧
    ∀ v, SparseWas 1 (before (CounterCall.incBy 5)) (during (CounterCall.incBy 5) .inc (.incBy 7)) 0 CounterCall.apply 1 v → 5 ≤ v ∧ v ≤ 13 := by
  obtain ⟨s, h⟩ := run (CounterCall.incBy 5) .inc (.incBy 7)
  obtain ⟨st, out, e1, e2⟩ := C68_counter hc F m name name_ok idLabel m h (by simp [during])
    (by
      intro v k x hx
      simp only [before, during, List.cons_append, List.nil_append, List.mem_cons, reduceCtorEq, SEvent.update.injEq,
        false_or, or_false, List.not_mem_nil] at hx
      rcases hx with ⟨_, _, rfl⟩ | ⟨_, _, rfl⟩ | ⟨_, _, rfl⟩ <;> (unfold CounterCall.Ok; decide))
    (by
      intro p k us hp hm
      refine ⟨idLabel_ok k, ?_⟩
      rcases prefix_three _ _ _ (during_keys _ _ _ p hp k us hm) with rfl | rfl | rfl | rfl <;> decide)
  obtain ⟨e3, us', e4, e5⟩ := C68_bounds h (k := 1) (us := [CounterCall.incBy 5]) (by decide) (by simp [during])
  have : mapOf (before (CounterCall.incBy 5) ++ .startPass 1 :: during (CounterCall.incBy 5) .inc (.incBy 7)) 1 =
      some [.incBy 5, .inc, .incBy 7] := by decide
  rw [this] at e4
  cases e4
  exact ⟨st, out, e1, e2, e3, e5⟩

example : ∃ st out, passEncode (textEncoder m ryu) name .gauge idLabel .gauge (gaugeOps m)
      (emitted 1 (during (GaugeCall.set 5) .dec (.incBy (-7)))) (TextEnc.new []) = (.ok (), ⟨st, out⟩) ∧
    PassShows rf name.text .gauge idLabel shownGauge
      (SparseWas 1 (before (GaugeCall.set 5)) (during (GaugeCall.set 5) .dec (.incBy (-7))) 0 GaugeCall.apply)
      (SparseThere 1 (before (GaugeCall.set 5)) (during (GaugeCall.set 5) .dec (.incBy (-7)))) out := by
  obtain ⟨s, h⟩ := run (GaugeCall.set 5) .dec (.incBy (-7))
  exact C68_gauge hc F m name name_ok idLabel m h (by simp [during])
    (by
      intro v k x hx
      simp only [before, during, List.cons_append, List.nil_append, List.mem_cons, reduceCtorEq, SEvent.update.injEq,
        false_or, or_false, List.not_mem_nil] at hx
      rcases hx with ⟨_, _, rfl⟩ | ⟨_, _, rfl⟩ | ⟨_, _, rfl⟩
      · exact ⟨by decide, by decide⟩
      · trivial
      · exact ⟨by decide, by decide⟩)
    (by
      intro p k us hp hm
      refine ⟨idLabel_ok k, ?_⟩
      rcases prefix_three _ _ _ (during_keys _ _ _ p hp k us hm) with rfl | rfl | rfl | rfl <;>
        exact ⟨by decide, by decide⟩)

example : ∃ st out, passEncode (textEncoder m ryu) name .floatGauge idLabel .floatGauge floatOps
      (emitted 1 (during FloatCall.inc (.set F64.one) .dec)) (TextEnc.new []) = (.ok (), ⟨st, out⟩) ∧
    PassShows rf name.text .floatGauge idLabel shownFloat
      (SparseWas 1 (before FloatCall.inc) (during FloatCall.inc (.set F64.one) .dec) F64.pzero FloatCall.apply)
      (SparseThere 1 (before FloatCall.inc) (during FloatCall.inc (.set F64.one) .dec)) out := by
  obtain ⟨s, h⟩ := run FloatCall.inc (.set F64.one) .dec
  exact C68_float hc F m name name_ok idLabel h (by simp [during]) idLabel_ok

example : ∃ st out, passEncode (textEncoder m ryu) name .histogram idLabel (.histogram [F64.one]) (histOps [F64.one])
      (emitted 1 (during (HistCall.observe F64.one) (.observe F64.pzero) (.observe F64.one))) (TextEnc.new []) =
        (.ok (), ⟨st, out⟩) ∧
    PassShows rf name.text .histogram idLabel (shownHistogram [F64.one])
      (SparseWas 1 (before (HistCall.observe F64.one)) (during (HistCall.observe F64.one) (.observe F64.pzero) (.observe F64.one)) []
        HistCall.apply)
      (SparseThere 1 (before (HistCall.observe F64.one)) (during (HistCall.observe F64.one) (.observe F64.pzero) (.observe F64.one)))
      out := by
  obtain ⟨s, h⟩ := run (HistCall.observe F64.one) (.observe F64.pzero) (.observe F64.one)
  exact C68_histogram hc F m name name_ok idLabel (by rw [Spec.NonDecreasing.iff_pairwise]; simp)
    (by intro b hb; rw [List.mem_singleton.1 hb]; decide +kernel) h (by simp [during])
    (by
      intro v k x hx
      simp only [before, during, List.cons_append, List.nil_append, List.mem_cons, reduceCtorEq, SEvent.update.injEq,
        false_or, or_false, List.not_mem_nil] at hx
      rcases hx with ⟨_, _, rfl⟩ | ⟨_, _, rfl⟩ | ⟨_, _, rfl⟩ <;> decide +kernel)
    (by
      intro p k us hp hm
      refine ⟨idLabel_ok k, ?_⟩
      rcases prefix_three _ _ _ (during_keys _ _ _ p hp k us hm) with rfl | rfl | rfl | rfl <;> decide +kernel)

example : ∃ st out, passEncode (textEncoder m ryu) name .counter idLabel .counter (counterOps m)
      (denseEmitted 1 (dduring (CounterCall.incBy 5) .inc (.incBy 7))) (TextEnc.new []) = (.ok (), ⟨st, out⟩) ∧
    PassShows rf name.text .counter idLabel shownCounter
      (DenseWas 1 (dbefore (CounterCall.incBy 5)) (dduring (CounterCall.incBy 5) .inc (.incBy 7)) 0 CounterCall.apply)
      (DenseThere 1 (dbefore (CounterCall.incBy 5))) out ∧
    DenseThere 1 (dbefore (CounterCall.incBy 5)) 1 := by
  obtain ⟨s, h⟩ := drun (CounterCall.incBy 5) .inc (.incBy 7)
  obtain ⟨st, out, e1, e2⟩ := C68_counter_dense F m name name_ok idLabel m h (by simp [dduring])
    (by
      intro v k o x hx
      simp only [dbefore, dduring, List.cons_append, List.nil_append, List.mem_cons, reduceCtorEq, DEvent.update.injEq,
        false_or, or_false, List.not_mem_nil] at hx
      rcases hx with ⟨_, _, _, rfl⟩ | ⟨_, _, _, rfl⟩ | ⟨_, _, _, rfl⟩ <;> (unfold CounterCall.Ok; decide)) idLabel_ok
    (by
      intro i us hp
      rcases prefix_three _ _ _ (dduring_updates _ _ _ i us hp) with rfl | rfl | rfl | rfl <;> decide)
  exact ⟨st, out, e1, e2, (dbefore (CounterCall.incBy 5)).take 4, (dbefore (CounterCall.incBy 5)).drop 5, 0, 0, rfl,
    .sync (tr := [.update 0 1 0 (CounterCall.incBy 5)]) (.keep (tr := []) .start)⟩

example : ∃ st out, passEncode (textEncoder m ryu) name .histogram idLabel (.histogram [F64.one]) (histOps [F64.one])
      (denseEmitted 1 (dduring (HistCall.observe F64.one) (.observe F64.pzero) (.observe F64.one))) (TextEnc.new []) =
        (.ok (), ⟨st, out⟩) ∧
    PassShows rf name.text .histogram idLabel (shownHistogram [F64.one])
      (DenseWas 1 (dbefore (HistCall.observe F64.one)) (dduring (HistCall.observe F64.one) (.observe F64.pzero) (.observe F64.one)) []
        HistCall.apply)
      (DenseThere 1 (dbefore (HistCall.observe F64.one))) out := by
  obtain ⟨s, h⟩ := drun (HistCall.observe F64.one) (.observe F64.pzero) (.observe F64.one)
  exact C68_histogram_dense F m name name_ok idLabel (by rw [Spec.NonDecreasing.iff_pairwise]; simp)
    (by intro b hb; rw [List.mem_singleton.1 hb]; decide +kernel) h (by simp [dduring])
    (by
      intro v k o x hx
      simp only [dbefore, dduring, List.cons_append, List.nil_append, List.mem_cons, reduceCtorEq, DEvent.update.injEq,
        false_or, or_false, List.not_mem_nil] at hx
      rcases hx with ⟨_, _, _, rfl⟩ | ⟨_, _, _, rfl⟩ | ⟨_, _, _, rfl⟩ <;> decide +kernel) idLabel_ok
    (by
      intro i us hp
      rcases prefix_three _ _ _ (dduring_updates _ _ _ i us hp) with rfl | rfl | rfl | rfl <;> decide +kernel)

example : ∃ st out, passEncode (textEncoder m ryu) name .gauge idLabel .gauge (gaugeOps m)
      (denseEmitted 1 (dduring (GaugeCall.set 5) .dec (.incBy (-7)))) (TextEnc.new []) = (.ok (), ⟨st, out⟩) ∧
    PassShows rf name.text .gauge idLabel shownGauge
      (DenseWas 1 (dbefore (GaugeCall.set 5)) (dduring (GaugeCall.set 5) .dec (.incBy (-7))) 0 GaugeCall.apply)
      (DenseThere 1 (dbefore (GaugeCall.set 5))) out := by
  obtain ⟨s, h⟩ := drun (GaugeCall.set 5) .dec (.incBy (-7))
  exact C68_gauge_dense F m name name_ok idLabel m h (by simp [dduring])
    (by
      intro v k o x hx
      simp only [dbefore, dduring, List.cons_append, List.nil_append, List.mem_cons, reduceCtorEq, DEvent.update.injEq,
        false_or, or_false, List.not_mem_nil] at hx
      rcases hx with ⟨_, _, _, rfl⟩ | ⟨_, _, _, rfl⟩ | ⟨_, _, _, rfl⟩
      · exact ⟨by decide, by decide⟩
      · trivial
      · exact ⟨by decide, by decide⟩) idLabel_ok
    (by
      intro i us hp
      rcases prefix_three _ _ _ (dduring_updates _ _ _ i us hp) with rfl | rfl | rfl | rfl <;>
        exact ⟨by decide, by decide⟩)

example : ∃ st out, passEncode (textEncoder m ryu) name .floatGauge idLabel .floatGauge floatOps
      (denseEmitted 1 (dduring FloatCall.inc (.set F64.one) .dec)) (TextEnc.new []) = (.ok (), ⟨st, out⟩) ∧
    PassShows rf name.text .floatGauge idLabel shownFloat
      (DenseWas 1 (dbefore FloatCall.inc) (dduring FloatCall.inc (.set F64.one) .dec) F64.pzero FloatCall.apply)
      (DenseThere 1 (dbefore FloatCall.inc)) out := by
  obtain ⟨s, h⟩ := drun FloatCall.inc (.set F64.one) .dec
  exact C68_float_dense F m name name_ok idLabel h (by simp [dduring]) idLabel_ok

example : ∃ st out, passEncode (textEncoder m ryu) name .floatGauge idLabel .floatGauge floatOps
      (emitted 1 (quiet (FloatCall.set F64.one))) (TextEnc.new []) = (.ok (), ⟨st, out⟩) ∧
    ScrapeShows rf name.text .floatGauge idLabel shownFloat
      (fun k => (mapOf (before (FloatCall.set F64.one)) k).map (sumUp FloatCall.apply F64.pzero)) out ∧
    (mapOf (before (FloatCall.set F64.one)) 1).map (sumUp FloatCall.apply F64.pzero) = some F64.one := by
  obtain ⟨s, h⟩ := qrun (FloatCall.set F64.one)
  obtain ⟨st, out, e1, e2⟩ := C68_float hc F m name name_ok idLabel h (by simp [quiet]) idLabel_ok
  exact ⟨st, out, e1, C68_quiet e2 (by simp [quiet]), rfl⟩

end

end ConcExample

end Measured
