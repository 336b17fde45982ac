import Verif.Proof.DeriveNamesTypes
import Verif.Props.LabelGroup

/-! # C92: what the fields of a label group are called -/

namespace Measured.Names
open Measured.Spec
variable {S V : Type}

theorem decodeDyn_length {D : DynSet S V} {h : Heap S} {n : Nat} : ∀ {L : List (Nat × Fin n)} {ks : List Nat} {env e : Env V n},
    decodeDyn D h L ks env = .ok e → ks.length = L.length
  | [], [], _, _, _ => rfl
  | (r, i) :: L, k :: ks, env, e, he => by
    rw [decodeDyn] at he
    cases hd : D.decode (h r) k with
    | ok v =>
      rw [hd] at he
      simp only [Out.ok_bind] at he
      simp [decodeDyn_length he]
    | err => rw [hd] at he; cases he
    | panic => rw [hd] at he; cases he
  | [], _ :: _, _, _, he => by cases he
  | _ :: _, [], _, _, he => by cases he

theorem derivedDecode_length {m : Mode} {D : DynSet S V} {d : GroupDef V} {h : Heap S} {u : Nat × List Nat} {g : d.Group}
    (he : derivedDecode m D d h u = .ok g) : u.2.length = d.dynamics.length := by
  unfold derivedDecode at he
  cases h1 : decodeFixed d.fixed u.1 (fun _ => none) with
  | err => rw [h1] at he; cases he
  | panic => rw [h1] at he; cases he
  | ok p =>
    obtain ⟨q, env⟩ := p
    rw [h1] at he
    simp only [Out.ok_bind] at he
    cases h2 : debugAssert m (decide (q = 0)) with
    | err => rw [h2] at he; cases he
    | panic => rw [h2] at he; cases he
    | ok _ =>
      rw [h2] at he
      simp only [Out.ok_bind] at he
      cases h3 : decodeDyn D h d.dynamics u.2 env with
      | err => rw [h3] at he; cases he
      | panic => rw [h3] at he; cases he
      | ok e => exact decodeDyn_length h3

/-- C92, which names are in the way: the generated `decode` compiles unless a field has the name of a variable that the
generated code binds after it or reads after it as something else. -/
theorem C92_compiles (d : Decl V) (hi : Function.Injective d.ident) : Compiles d ↔ ¬ Clash d := compiles_iff d hi

/-- C92, most names are not in the way: only `index`, `index1`, `card` and `dynamic_index#n` can be. -/
theorem C92_plain (d : Decl V) (hi : Function.Injective d.ident)
    (h : ∀ i, d.ident i ∉ [b!"index", b!"index1", b!"card"] ∧ ∀ n, d.ident i ≠ b!"dynamic_index" ++ decDigits n) : Compiles d := by
  rw [C92_compiles d hi]
  intro hc
  cases hc with
  | temp i hf h1 hn => exact (h i).1 hn
  | index i hf hn he => exact (h i).1 (by simp [hn])
  | fixed i e hf he hn => exact (h i).2 _ hn
  | dyn i e hf he hl hn => exact (h i).2 _ hn

/-- C92, except for one case: whatever the fields are called, if the generated code compiles then what is encoded is decoded to
the same labels, now and later. The exception is a debug build with a fixed field called `index` whose type can be compared
with numbers. -/
theorem C92_round_trip_partial (m m' : Mode) (D : DynSet S V) (inv : S → Prop) (le : S → S → Prop) (valid : S → Nat → Prop)
    (L : DynSetLaws D inv le valid) (d : Decl V) (hi : Function.Injective d.ident) (hc : Compiles d)
    (hx : m' = .release ∨ ∀ i, IsFixed d i → d.ident i = b!"index" → d.eqZero i = none)
    (hl : FieldsLawful FixedSetLaws d.group) (hw : combinations d.group < W64) (g : d.group.Group) (h h' : Heap S)
    (hh : ∀ r, inv (h r)) (u : Nat × List Nat) (he : (derived m D d.group).encode g h = (.ok (some u), h')) :
    decode m' D d h' u = .ok g ∧
    ∀ h'' : Heap S, (∀ r, inv (h'' r)) → (∀ r, le (h' r) (h'' r)) → decode m' D d h'' u = .ok g := by
  obtain ⟨h1, h2⟩ := C02_derived_round_trip m m' D inv le valid L d.group hl hw g h h' hh u he
  have hu : u.2.length = d.group.dynamics.length := derivedDecode_length h1
  refine ⟨by rw [decode_eq hi hc hu hx]; exact h1, fun h'' h3 h4 => ?_⟩
  rw [decode_eq hi hc hu hx]
  exact (h2 h'' h3 h4).1

/-- C92, the case that is left, exactly: the labels are decoded if the label of the field called `index` is equal to zero, and
otherwise there is a panic. -/
theorem C92_exact (m : Mode) (D : DynSet S V) (inv : S → Prop) (le : S → S → Prop) (valid : S → Nat → Prop)
    (L : DynSetLaws D inv le valid) (d : Decl V) (hi : Function.Injective d.ident) (hc : Compiles d) {i : Fin d.group.n}
    (hf : IsFixed d i) (hn : d.ident i = b!"index") {z : V → Bool} (hz : d.eqZero i = some z)
    (hl : FieldsLawful FixedSetLaws d.group) (hw : combinations d.group < W64) (g : d.group.Group) (h h' : Heap S)
    (hh : ∀ r, inv (h r)) (u : Nat × List Nat) (he : (derived m D d.group).encode g h = (.ok (some u), h')) :
    decode .debug D d h' u = if z (g i) then .ok g else .panic := by
  have h1 := (C02_derived_round_trip m .release D inv le valid L d.group hl hw g h h' hh u he).1
  exact decode_index hi hc (derivedDecode_length h1) hf hn hz h1

/-- C92, for every id, also one that was never given out: the names make no difference to what `decode` does. -/
theorem C92_same_partial (m : Mode) (D : DynSet S V) (d : Decl V) (hi : Function.Injective d.ident) (hc : Compiles d)
    (hx : m = .release ∨ ∀ i, IsFixed d i → d.ident i = b!"index" → d.eqZero i = none) (e : Decl V)
    (hg : e.group = d.group) (hi' : Function.Injective e.ident) (hc' : Compiles e)
    (hx' : m = .release ∨ ∀ i, IsFixed e i → e.ident i = b!"index" → e.eqZero i = none) (h : Heap S) (u : Nat × List Nat)
    (hu : u.2.length = d.group.dynamics.length) : decode m D d h u = hg ▸ decode m D e h u := by
  obtain ⟨G, id, z⟩ := d
  obtain ⟨G', id', z'⟩ := e
  cases hg
  rw [decode_eq hi hc hu hx, decode_eq hi' hc' hu hx']

/-! ## The exception -/

/-- A struct with the fields `index` and `path`. The type of `index` has the values "0", "1" and "2", which are equal to the
numbers. -/
def indexDecl : Decl String where
  group := ⟨2, fun
    | 0 => ⟨b!"index", .fixed (indexSet ["0", "1", "2"])⟩
    | 1 => ⟨b!"path", .dynamic 0⟩⟩
  ident := fun i => match i with
    | 0 => b!"index"
    | 1 => b!"path"
  eqZero := fun i => match i with
    | 0 => some (· == "0")
    | 1 => none

theorem indexDecl_inj : Function.Injective indexDecl.ident := by
  show Function.Injective (fun i : Fin 2 => indexDecl.ident i)
  decide

theorem indexDecl_compiles : Compiles indexDecl := by
  rw [C92_compiles _ indexDecl_inj]
  have hne : ∀ (i : Fin 2) (j : Nat), indexDecl.ident i ≠ dynIndex j := by
    intro i j e
    have := congrArg List.head? e
    match i with
    | 0 => simp [indexDecl, dynIndex] at this
    | 1 => simp [indexDecl, dynIndex] at this
  intro h
  cases h with
  | temp i hf h1 hn =>
    change Fin 2 at i
    match i with
    | 0 => exact h1 ⟨hf, fun j hj => absurd hj (Nat.not_lt_zero j.val)⟩
    | 1 => simp [indexDecl] at hn
  | index i hf hn he =>
    change Fin 2 at i
    match i with
    | 0 => cases he
    | 1 => simp [indexDecl] at hn
  | fixed i e hf he hn => exact hne _ _ hn
  | dyn i e hf he hl hn => exact hne _ _ hn

theorem indexDecl_lawful : FieldsLawful FixedSetLaws indexDecl.group := by
  intro i s h
  change Fin 2 at i
  match i with
  | 0 => simp only [indexDecl] at h; cases h; exact indexSet_laws _ (by decide)
  | 1 => simp [indexDecl] at h

/-- C92 is false in one case: in a debug build the generated `debug_assert_eq!(index, 0)` compares the label instead of the
rest of the id, and panics. -/
theorem C92_index_refuted : Compiles indexDecl ∧ FieldsLawful FixedSetLaws indexDecl.group ∧
    (derived .debug threadedRodeo indexDecl.group).encode (![ "2", "/b" ] : Fin 2 → String) exampleHeap =
      (.ok (some (2, [1])), exampleHeap.set 0 ⟨["/a", "/b"], 10⟩) ∧
    decode .debug threadedRodeo indexDecl (exampleHeap.set 0 ⟨["/a", "/b"], 10⟩) (2, [1]) = .panic ∧
    decode .release threadedRodeo indexDecl (exampleHeap.set 0 ⟨["/a", "/b"], 10⟩) (2, [1]) =
      .ok (![ "2", "/b" ] : Fin 2 → String) := by
  refine ⟨indexDecl_compiles, indexDecl_lawful, rfl, by decide, ?_⟩
  exact (C92_round_trip_partial .debug .release threadedRodeo _ _ _ threadedRodeo_laws indexDecl indexDecl_inj indexDecl_compiles
    (.inl rfl) indexDecl_lawful (by decide) (![ "2", "/b" ] : Fin 2 → String) exampleHeap _ (fun _ => by show List.Nodup ["/a"]; decide) (2, [1]) rfl).1

/-- With the label "0" there is no panic. -/
example : decode .debug threadedRodeo indexDecl (exampleHeap.set 0 ⟨["/a", "/b"], 10⟩) (0, [1]) =
    .ok (![ "0", "/b" ] : Fin 2 → String) :=
  C92_exact .debug threadedRodeo _ _ _ threadedRodeo_laws indexDecl indexDecl_inj indexDecl_compiles (i := (0 : Fin 2)) ⟨_, rfl⟩ rfl
    rfl indexDecl_lawful (by decide) (![ "0", "/b" ] : Fin 2 → String) exampleHeap _ (fun _ => by show List.Nodup ["/a"]; decide)
    (0, [1]) rfl

/-! ## Other names -/

/-- `struct RequestLabels { card: Method, dynamic_index0: &str, value: Status }`: all of these names are used by the generated
code, and none is in the way. -/
def oddDecl : Decl String where
  group := exampleDef
  ident := fun (i : Fin 3) => match i with
    | 0 => b!"card"
    | 1 => b!"dynamic_index0"
    | 2 => b!"value"
  eqZero := fun _ => none

theorem oddDecl_inj : Function.Injective oddDecl.ident := by
  show Function.Injective (fun i : Fin 3 => oddDecl.ident i)
  decide

theorem oddDecl_compiles : Compiles oddDecl := by
  rw [C92_compiles _ oddDecl_inj]
  have hne : ∀ (i : Fin 3) (j : Nat), i ≠ 1 → oddDecl.ident i ≠ dynIndex j := by
    intro i j h e
    have := congrArg List.head? e
    match i with
    | 0 => simp [oddDecl, dynIndex] at this
    | 1 => exact h rfl
    | 2 => simp [oddDecl, dynIndex] at this
  have hfix : ¬ IsFixed oddDecl (1 : Fin 3) := by rintro ⟨s, h⟩; cases h
  have hdyn : ∀ i : Fin 3, IsDynamic oddDecl i → i = 1 := by
    intro i h
    match i with
    | 0 => obtain ⟨r, h⟩ := h; cases h
    | 1 => rfl
    | 2 => obtain ⟨r, h⟩ := h; cases h
  intro h
  cases h with
  | temp i hf h1 hn =>
    change Fin 3 at i
    match i with
    | 0 => exact h1 ⟨hf, fun j hj => absurd hj (Nat.not_lt_zero j.val)⟩
    | 1 => exact hfix hf
    | 2 => simp [oddDecl] at hn
  | index i hf hn he =>
    change Fin 3 at i
    match i with
    | 0 => simp [oddDecl] at hn
    | 1 => exact hfix hf.1
    | 2 => simp [oddDecl] at hn
  | fixed i e hf he hn => exact hne i _ (fun h => hfix (h ▸ hf)) hn
  | dyn i e hf he hl hn =>
    rw [hdyn i hf, hdyn e he] at hl
    exact absurd hl (lt_irrefl _)

example : decode .debug threadedRodeo oddDecl (exampleHeap.set 0 ⟨["/a", "/b"], 10⟩) (4, [1]) =
    .ok (![ "Post", "/b", "err" ] : Fin 3 → String) :=
  (C92_round_trip_partial .debug .debug threadedRodeo _ _ _ threadedRodeo_laws oddDecl oddDecl_inj oddDecl_compiles
    (.inr fun _ _ _ => rfl) exampleDef_lawful (by decide) (![ "Post", "/b", "err" ] : Fin 3 → String) exampleHeap _
    (fun _ => by show List.Nodup ["/a"]; decide) (4, [1]) rfl).1

/-- The same struct with ordinary names. -/
def plainDecl : Decl String where
  group := exampleDef
  ident := fun (i : Fin 3) => match i with
    | 0 => b!"method"
    | 1 => b!"path"
    | 2 => b!"status"
  eqZero := fun _ => none

theorem plainDecl_inj : Function.Injective plainDecl.ident := by
  show Function.Injective (fun i : Fin 3 => plainDecl.ident i)
  decide

theorem plainDecl_compiles : Compiles plainDecl := C92_plain _ plainDecl_inj fun (i : Fin 3) => by
  match i with
  | 0 => exact ⟨by decide, fun n e => by simpa [plainDecl] using congrArg List.head? e⟩
  | 1 => exact ⟨by decide, fun n e => by simpa [plainDecl] using congrArg List.head? e⟩
  | 2 => exact ⟨by decide, fun n e => by simpa [plainDecl] using congrArg List.head? e⟩

/-- An id that was never given out. -/
example : decode .debug threadedRodeo oddDecl exampleHeap (100, [0]) = decode .debug threadedRodeo plainDecl exampleHeap (100, [0]) :=
  C92_same_partial .debug threadedRodeo oddDecl oddDecl_inj oddDecl_compiles (.inr fun _ _ _ => rfl) plainDecl rfl plainDecl_inj
    plainDecl_compiles (.inr fun _ _ _ => rfl) exampleHeap (100, [0]) rfl

/-- The same fields the other way around do not compile: `card` is bound again for the field before it. -/
example : ¬ Compiles { oddDecl with ident := fun (i : Fin 3) => match i with
    | 0 => b!"value"
    | 1 => b!"dynamic_index0"
    | 2 => b!"card" } := by
  rw [C92_compiles]
  · refine fun h => h (.temp (2 : Fin 3) ⟨_, rfl⟩ (fun h => h.2 (0 : Fin 3) (by decide) ⟨_, rfl⟩) (by decide))
  · show Function.Injective (fun i : Fin 3 => _)
    decide

end Measured.Names
