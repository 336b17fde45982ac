import Verif.Model.SharedInterners
import Verif.Props.LabelledVec

/-! # Vectors that share interners do not disturb each other (C66, C75) -/

namespace Measured.Spec
open Measured.Conc

/-- What happened on vector `i`. -/
def onVector {ι V : Type} [DecidableEq ι] {U : ι → Type} {d : ι → GroupDef V} (i : ι) :
    List (Σ i, LVEvent V (U i) (d i).n) → List (LVEvent V (U i) (d i).n)
  | [] => []
  | ⟨j, e⟩ :: tr => if h : j = i then (h ▸ e) :: onVector i tr else onVector i tr

/-- Leave out the steps inside of `encode` and `decode`. -/
def visible {V U : Type} {n : Nat} : List (LVEvent V U n) → List (LVEvent V U n)
  | [] => []
  | .lab (.tau _) :: tr => visible tr
  | e :: tr => e :: visible tr

end Measured.Spec

namespace Measured.Conc
open Measured.Spec

variable {ι S V : Type} [DecidableEq ι] {U : ι → Type} {d : ι → GroupDef V} {D : DynSet S V}

theorem onVector_append (i : ι) (a b : List (Σ i, LVEvent V (U i) (d i).n)) :
    onVector i (a ++ b) = onVector i a ++ onVector i b := by
  induction a with
  | nil => rfl
  | cons e a ih =>
    obtain ⟨j, e⟩ := e
    simp only [List.cons_append, onVector]
    split <;> simp [ih]

theorem visible_append {U : Type} {n : Nat} (a b : List (LVEvent V U n)) : visible (a ++ b) = visible a ++ visible b := by
  induction a with
  | nil => rfl
  | cons e a ih =>
    cases e with
    | lab e => cases e <;> simp [visible, ih]
    | vec e => simp [visible, ih]
    | shown => simp [visible, ih]

theorem mem_visible {U : Type} {n : Nat} {e : LVEvent V U n} (he : ∀ t, e ≠ .lab (.tau t)) {tr : List (LVEvent V U n)} :
    e ∈ visible tr ↔ e ∈ tr := by
  induction tr with
  | nil => rfl
  | cons f tr ih =>
    cases f with
    | lab f =>
      cases f with
      | tau t => simp [visible, ih, he t]
      | encoded => simp [visible, ih]
      | decoded => simp [visible, ih]
      | panic => simp [visible, ih]
    | vec f => simp [visible, ih]
    | shown => simp [visible, ih]

theorem mem_onVector {i : ι} {e : LVEvent V (U i) (d i).n} {tr : List (Σ i, LVEvent V (U i) (d i).n)} :
    e ∈ onVector i tr ↔ ⟨i, e⟩ ∈ tr := by
  induction tr with
  | nil => simp [onVector]
  | cons f tr ih =>
    obtain ⟨j, f⟩ := f
    simp only [onVector, List.mem_cons]
    split
    · rename_i h
      subst h
      simp [ih]
    · rename_i h
      rw [ih]
      constructor
      · exact .inr
      · rintro (h' | h')
        · exact absurd (congrArg Sigma.fst h').symm h
        · exact h'

/-- A step changes the interners by one call of one of them, or not at all. -/
theorem lvStep_heap {U : Type} {m : Mode} {d : GroupDef V} {c : ShardConf (Nat × List Nat)} {s x : LVSys S V U d.n}
    {e : LVEvent V U d.n} (h : LVStep m D d c s e x) :
    x.lab.heap = s.lab.heap ∨ ∃ r v k y, D.encode (s.lab.heap r) v = (k, y) ∧ x.lab.heap = s.lab.heap.set r y := by
  cases h with
  | lab h =>
    cases h with
    | intern _ hx => exact .inr ⟨_, _, _, _, hx, rfl⟩
    | internRefused _ hx => exact .inr ⟨_, _, _, _, hx, rfl⟩
    | foreign hx => exact .inr ⟨_, _, _, _, hx, rfl⟩
    | _ => exact .inl rfl
  | vec _ _ => exact .inl rfl
  | shown _ _ => exact .inl rfl

/-- C75, shared interners: what happens on one of many vectors that share interners is a run of this vector, as in C75, with
some more steps of others that use its interners. -/
theorem C75_shared {m : Mode} {c : ι → ShardConf (Nat × List Nat)} {h : Heap S}
    {tr : List (Σ i, LVEvent V (U i) (d i).n)} {s : SharedSys S V U d}
    (he : Exec (SharedStep m D c) (SharedSys.new h) tr s) (i : ι) :
    ∃ tr', Exec (LVStep m D (d i) (c i)) (.new h) tr' (s.at i) ∧ visible tr' = visible (onVector i tr) := by
  induction he with
  | nil => exact ⟨[], .nil, rfl⟩
  | @snoc tr s e s' _ hs ih =>
    obtain ⟨tr', h1, h2⟩ := ih
    cases hs with
    | on j e x hx =>
      by_cases hji : j = i
      · subst hji
        refine ⟨tr' ++ [e], .snoc h1 ?_, ?_⟩
        · have : (s.put j x).at j = x := by
            obtain ⟨⟨a, b, c⟩, e, f⟩ := x
            simp [SharedSys.at, SharedSys.put]
          rw [this]
          exact hx
        · rw [onVector_append, visible_append, visible_append, h2]
          simp [onVector]
      · have ho : onVector i (tr ++ [⟨j, e⟩]) = onVector i tr := by
          rw [onVector_append]
          simp [onVector, hji]
        rw [ho]
        have hat : (s.put j x).at i = { s.at i with lab := { (s.at i).lab with heap := x.lab.heap } } := by
          simp [SharedSys.at, SharedSys.put, Function.update_of_ne (Ne.symm hji)]
        rcases lvStep_heap hx with hh | ⟨r, v, k, y, hy, hh⟩
        · refine ⟨tr', ?_, h2⟩
          have : (s.put j x).at i = s.at i := by rw [hat, hh]; rfl
          rw [this]
          exact h1
        · refine ⟨tr' ++ [.lab (.tau 0)], .snoc h1 ?_, by rw [visible_append, h2]; simp [visible]⟩
          rw [hat, hh]
          exact LVStep.lab (.foreign (t := 0) (s := (s.at i).lab) hy)

variable {inv : S → Prop} {le : S → S → Prop} {valid : S → Nat → Prop}

/-- C66, shared interners: with any number of label group sets in use on the same interners, each of them still gives the
same id to the same group and different ids to different groups, decodes an id to its group, and does not panic. -/
theorem C66_shared (m m' : Mode) (L : DynSetLaws D inv le valid) (hl : ∀ i, FieldsLawful FixedSetLaws (d i))
    (hf : ∀ i, Spec.Fits (d i)) (c : ι → ShardConf (Nat × List Nat)) (h : Heap S) (hh : HeapInv inv h)
    {tr : List (Σ i, LVEvent V (U i) (d i).n)} {s : SharedSys S V U d}
    (he : Exec (SharedStep m D c) (SharedSys.new h) tr s) (i : ι) :
    (∀ t t' g g' u u', ⟨i, .lab (.encoded t g (some u))⟩ ∈ tr → ⟨i, .lab (.encoded t' g' (some u'))⟩ ∈ tr → (u = u' ↔ g = g')) ∧
    (∀ t t' g g' u, ⟨i, .lab (.encoded t g (some u))⟩ ∈ tr → ⟨i, .lab (.decoded t' u g')⟩ ∈ tr → g' = g) ∧
    (∀ t g u, ⟨i, .lab (.encoded t g (some u))⟩ ∈ tr → (derived m' D (d i)).decode s.heap u = .ok g) ∧
    (∀ t, ⟨i, .lab (.panic t)⟩ ∉ tr ∧ ⟨i, .vec (.panic t)⟩ ∉ tr) := by
  obtain ⟨tr', h1, h2⟩ := C75_shared he i
  have hm : ∀ e : LVEvent V (U i) (d i).n, (∀ t, e ≠ .lab (.tau t)) → (⟨i, e⟩ ∈ tr ↔ e ∈ tr') := fun e hne => by
    rw [← mem_visible hne (tr := tr'), h2, mem_visible hne, mem_onVector]
  obtain ⟨i1, _, _⟩ := lv_project h1
  refine ⟨fun t t' g g' u u' a b => ?_, fun t t' g g' u a b => ?_, fun t g u a => ?_, fun t => ?_⟩
  · exact C66_agree m L (d i) (hl i) (hf i) h hh i1 (mem_labEvents.2 ((hm _ (by simp)).1 a)) (mem_labEvents.2 ((hm _ (by simp)).1 b))
  · exact (C66_decode m m' L (d i) (hl i) (hf i) h hh i1 (mem_labEvents.2 ((hm _ (by simp)).1 a))).1 t' g'
      (mem_labEvents.2 ((hm _ (by simp)).1 b))
  · exact (C66_decode m m' L (d i) (hl i) (hf i) h hh i1 (mem_labEvents.2 ((hm _ (by simp)).1 a))).2
  · have := C75_no_panic m L (d i) (hl i) (hf i) (c i) h hh h1 t
    exact ⟨fun a => this.1 ((hm _ (by simp)).1 a), fun a => this.2 ((hm _ (by simp)).1 a)⟩

/-! ## Two vectors with one interner -/

namespace SharedExample
open LVExample (one)

/-- Two threads encode new groups for two vectors at the same time; the interner is the same. -/
def trace : List (Σ _ : Fin 2, LVEvent String CounterCall 3) :=
  [⟨0, .lab (.tau 0)⟩, ⟨1, .lab (.tau 1)⟩, ⟨1, .lab (.tau 1)⟩, ⟨0, .lab (.tau 0)⟩,
    ⟨0, .lab (.encoded 0 ![ "Post", "/b", "err" ] (some (4, [2])))⟩,
    ⟨1, .lab (.encoded 1 ![ "Get", "/c", "ok" ] (some (0, [1])))⟩]

theorem run : ∃ s : SharedSys (Rodeo String) String (fun _ : Fin 2 => CounterCall) (fun _ => exampleDef),
    Exec (SharedStep .debug threadedRodeo fun _ => one) (SharedSys.new exampleHeap) trace s := by
  refine ⟨_, exec_cons (.on _ 0 _ _ (.lab (LabelStep.encodeStart (t := 0) (g := ![ "Post", "/b", "err" ]) (index := 4) rfl
      (by decide)))) <|
    exec_cons (.on _ 1 _ _ (.lab (LabelStep.encodeStart (t := 1) (g := ![ "Get", "/c", "ok" ]) (index := 0) rfl
      (by decide)))) <|
    exec_cons (.on _ 1 _ _ (.lab (LabelStep.intern (t := 1) (k := 1) (x := ⟨["/a", "/c"], 10⟩) rfl rfl))) <|
    exec_cons (.on _ 0 _ _ (.lab (LabelStep.intern (t := 0) (k := 2) (x := ⟨["/a", "/c", "/b"], 10⟩) rfl rfl))) <|
    exec_cons (.on _ 0 _ _ (.lab (LabelStep.encodeEnd rfl))) <|
    exec_cons (.on _ 1 _ _ (.lab (LabelStep.encodeEnd rfl))) .nil⟩

example : ∃ s : SharedSys (Rodeo String) String (fun _ : Fin 2 => CounterCall) (fun _ => exampleDef),
    Exec (SharedStep .debug threadedRodeo fun _ => one) (SharedSys.new exampleHeap) trace s ∧
    (derived .release threadedRodeo exampleDef).decode s.heap (4, [2]) = .ok ![ "Post", "/b", "err" ] := by
  obtain ⟨s, hs⟩ := run
  exact ⟨s, hs, (C66_shared .debug .release threadedRodeo_laws (fun _ => exampleDef_lawful)
    (fun _ => fits_of_pos (by decide) (by decide)) (fun _ => one) exampleHeap
    (fun _ => by show List.Nodup ["/a"]; decide) hs 0).2.2.1 0 ![ "Post", "/b", "err" ] (4, [2])
    (.tail _ <| .tail _ <| .tail _ <| .tail _ <| .head _)⟩

end SharedExample

end Measured.Conc
