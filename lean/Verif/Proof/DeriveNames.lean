import Verif.Spec.DeriveNames
import Verif.Proof.LabelGroup
import Verif.Proof.TextRead

/-! # The names in the generated `decode`: types are kept, and the variables hold what they should -/

namespace Measured.Names

variable {S V : Type}

theorem dynIndex_inj {a b : Nat} (h : dynIndex a = dynIndex b) : a = b := by
  have e : decDigits a = decDigits b := List.append_cancel_left h
  have h1 := decDigits_read a
  rw [e, decDigits_read] at h1
  simpa using h1.symm

theorem dynIndex_ne (j : Nat) : dynIndex j ≠ b!"index" ∧ dynIndex j ≠ b!"index1" ∧ dynIndex j ≠ b!"card" := by
  refine ⟨?_, ?_, ?_⟩ <;> (intro h; exact absurd (congrArg List.head? h) (by simp [dynIndex]))

theorem bindVar_same {α : Type} (f : Id → Option α) (x : Id) (a : α) : bindVar f x a x = some a := by simp [bindVar]

theorem bindVar_ne {α : Type} (f : Id → Option α) {x y : Id} (a : α) (h : y ≠ x) : bindVar f x a y = f y := by simp [bindVar, h]

/-! ## Types -/

def Val.ty {n : Nat} : Val V n → Ty n
  | .num _ => .usize
  | .label i _ => .label i

/-- The scope that the values have. -/
def tys {n : Nat} (vs : Vars V n) : Scope n := fun x => (vs x).map Val.ty

theorem tys_bind {n : Nat} (vs : Vars V n) (x : Id) (a : Val V n) : tys (bindVar vs x a) = bindVar (tys vs) x a.ty := by
  funext y
  by_cases h : y = x <;> simp [tys, bindVar, h]

theorem usize_num {n : Nat} {vs : Vars V n} {x : Id} (h : tys vs x = some .usize) : ∃ k, vs x = some (.num k) := by
  cases hv : vs x with
  | none => simp [tys, hv] at h
  | some a =>
    cases a with
    | num k => exact ⟨k, rfl⟩
    | label i v => simp [tys, hv, Val.ty] at h

/-! ## The fixed fields -/

/-- A variable called `index` that is a number is what is left of the id. -/
def IndexIs {n : Nat} (vs : Vars V n) (q : Nat) : Prop := ∀ k, vs b!"index" = some (.num k) → k = q

/-- A label in a variable with the name of a field is the label of the field. -/
def LabelsAre {n : Nat} (ident : Fin n → Id) (vs : Vars V n) (env : Env V n) : Prop :=
  ∀ j i v, vs (ident j) = some (.label i v) → i = j ∧ env j = some v

/-- A number in a variable `dynamic_index#j` is the id of the dynamic field. -/
def IdsAre {n : Nat} (vs : Vars V n) (ks : List Nat) : Prop := ∀ j k, vs (dynIndex j) = some (.num k) → ks[j]? = some k

theorem labelsAre_num {n : Nat} {ident : Fin n → Id} {vs : Vars V n} {env : Env V n} (h : LabelsAre ident vs env) (x : Id) (k : Nat) :
    LabelsAre ident (bindVar vs x (.num k)) env := by
  intro j i v e
  by_cases hx : ident j = x
  · rw [hx, bindVar_same] at e; cases e
  · rw [bindVar_ne _ _ hx] at e; exact h j i v e

theorem labelsAre_label {n : Nat} {ident : Fin n → Id} (hi : Function.Injective ident) {vs : Vars V n} {env : Env V n}
    (h : LabelsAre ident vs env) (i : Fin n) (v : V) : LabelsAre ident (bindVar vs (ident i) (.label i v)) (env.bind i v) := by
  intro j i' v' e
  by_cases hx : ident j = ident i
  · rw [hx, bindVar_same] at e
    cases e
    exact ⟨(hi hx).symm, by simp [Env.bind, hi hx]⟩
  · rw [bindVar_ne _ _ hx] at e
    obtain ⟨h1, h2⟩ := h j i' v' e
    exact ⟨h1, by rw [Env.bind, if_neg (fun he : j = i => hx (by rw [he])), h2]⟩

theorem idsAre_num {n : Nat} {vs : Vars V n} {ks : List Nat} (h : IdsAre vs ks) {x : Id} (hx : ∀ j, dynIndex j ≠ x) (a : Val V n) :
    IdsAre (bindVar vs x a) ks := by
  intro j k e
  rw [bindVar_ne _ _ (hx j)] at e
  exact h j k e

theorem idsAre_label {n : Nat} {vs : Vars V n} {ks : List Nat} (h : IdsAre vs ks) (x : Id) (i : Fin n) (v : V) :
    IdsAre (bindVar vs x (.label i v)) ks := by
  intro j k e
  by_cases hx : dynIndex j = x
  · rw [hx, bindVar_same] at e; cases e
  · rw [bindVar_ne _ _ hx] at e; exact h j k e

/-- A label is in a variable with the name of its field, which is one of those. -/
def Owned {n : Nat} (ident : Fin n → Id) (P : Fin n → Prop) (vs : Vars V n) : Prop :=
  ∀ x i v, vs x = some (.label i v) → x = ident i ∧ P i

theorem owned_num {n : Nat} {ident : Fin n → Id} {P : Fin n → Prop} {vs : Vars V n} (h : Owned ident P vs) (x : Id) (k : Nat) :
    Owned ident P (bindVar vs x (.num k)) := by
  intro y i v e
  by_cases hx : y = x
  · rw [hx, bindVar_same] at e; cases e
  · rw [bindVar_ne _ _ hx] at e; exact h y i v e

theorem owned_label {n : Nat} {ident : Fin n → Id} {P : Fin n → Prop} {vs : Vars V n} (h : Owned ident P vs) (i : Fin n) (v : V)
    (hp : P i) : Owned ident P (bindVar vs (ident i) (.label i v)) := by
  intro y i' v' e
  by_cases hx : y = ident i
  · rw [hx, bindVar_same] at e
    cases e
    exact ⟨hx, hp⟩
  · rw [bindVar_ne _ _ hx] at e; exact h y i' v' e

/-- What the two ways of decoding do with the fixed fields, and where they are afterwards. -/
inductive Same {n : Nat} (α : Type) (ident : Fin n → Id) (P : Fin n → Prop) (ks : List Nat) (Γ : Option (Scope n)) (ch : Scope n → Option (Scope n))
    (go : Vars V n → Out α) : Out (Nat × Env V n) → Out α → Prop where
  | ok {q env vs} (hI : IndexIs vs q) (hL : LabelsAre ident vs env) (hK : IdsAre vs ks) (hO : Owned ident P vs)
      (hc : ch (tys vs) = Γ) :
    Same α ident P ks Γ ch go (.ok (q, env)) (go vs)
  | err : Same α ident P ks Γ ch go .err .err
  | panic : Same α ident P ks Γ ch go .panic .panic

theorem fixed_same (m : Mode) (D : DynSet S V) (d : Decl V) (h : Heap S) (hi : Function.Injective d.ident) (ks : List Nat)
    (rest : List (Stmt d.group.n)) {Γ : Scope d.group.n} : ∀ (L : List (FixedSet V × Fin d.group.n)) (q : Nat)
    (vs : Vars V d.group.n) (env : Env V d.group.n), (∀ p ∈ L, (d.group.field p.2).kind = .fixed p.1) →
    checkAll d.eqZero (tys vs) (fixedStmts d.ident L ++ rest) = some Γ → IndexIs vs q → LabelsAre d.ident vs env → IdsAre vs ks →
    Owned d.ident (IsFixed d) vs → Same _ d.ident (IsFixed d) ks (some Γ) (fun G => checkAll d.eqZero G rest) (fun vs => runAll m D d h vs rest)
      (decodeFixed L q env) (runAll m D d h vs (fixedStmts d.ident L ++ rest))
  | [], q, vs, env, _, hc, hI, hL, hK, hO => .ok hI hL hK hO hc
  | (s, i) :: L, q, vs, env, hk, hc, hI, hL, hK, hO => by
    have hs : (d.group.field i).kind = .fixed s := hk (s, i) (by simp)
    have hn : ∀ x ∈ [b!"card", b!"index", b!"index1"], ∀ j, dynIndex j ≠ x := by
      intro x hx j
      obtain ⟨h1, h2, h3⟩ := dynIndex_ne j
      simp only [List.mem_cons, List.not_mem_nil, or_false] at hx
      rcases hx with rfl | rfl | rfl <;> assumption
    have hci : (b!"index" : Id) ≠ b!"card" := by decide
    have h1i : (b!"index" : Id) ≠ b!"index1" := by decide
    simp only [fixedStmts, List.cons_append, checkAll, Stmt.check, Expr.ty, Option.map_some, Option.bind_some] at hc
    have hidx : tys vs b!"index" = some .usize := by
      by_contra hne
      rw [bindVar_ne _ _ hci, if_neg (fun hh => hne hh.1)] at hc
      simp at hc
    obtain ⟨k, hv⟩ := usize_num hidx
    obtain rfl := hI k hv
    rw [bindVar_ne _ _ hci, bindVar_same, if_pos ⟨hidx, rfl⟩] at hc
    simp only [Option.bind_some, Option.map_some, bindVar_same, if_true] at hc
    have r1 : num (bindVar vs b!"card" (Val.num s.card)) b!"index" = .ok k := by
      rw [num, bindVar_ne _ _ hci, hv]
    have r2 : num (bindVar vs b!"card" (Val.num s.card)) b!"card" = .ok s.card := by
      rw [num, bindVar_same]
    simp only [fixedStmts, List.cons_append, runAll, Stmt.run, Expr.eval, hs, decodeFixed, r1, r2, Out.ok_bind]
    by_cases hz : s.card = 0
    · simp only [divU, hz, if_true, Out.panic_bind]; exact .panic
    · simp only [divU, modU, hz, if_false, Out.ok_bind, num, bindVar_same]
      cases hd : s.decode (k % s.card) with
      | err => exact .err
      | panic => exact .panic
      | ok v =>
        simp only [Out.ok_bind]
        refine fixed_same m D d h hi ks rest L _ _ _ (fun p hp => hk p (List.mem_cons_of_mem _ hp)) ?_ ?_ ?_ ?_
          (owned_label (owned_num (owned_num (owned_num hO _ _) _ _) _ _) i v ⟨s, hs⟩)
        · rw [tys_bind, tys_bind, tys_bind, tys_bind]
          exact hc
        · intro k' hk'
          by_cases he : (b!"index" : Id) = d.ident i
          · rw [he, bindVar_same] at hk'; cases hk'
          · rw [bindVar_ne _ _ he, bindVar_ne _ _ h1i, bindVar_same] at hk'
            cases hk'
            rfl
        · exact labelsAre_label hi (labelsAre_num (labelsAre_num (labelsAre_num hL _ _) _ _) _ _) i v
        · exact idsAre_label (idsAre_num (idsAre_num (idsAre_num hK (hn _ (by simp)) _) (hn _ (by simp)) _) (hn _ (by simp)) _) _ _ _

/-! ## The dynamic fields, and all of it -/

inductive SameEnd {n : Nat} (ident : Fin n → Id) (Γ : Scope n) : Out (Env V n) → Out (Vars V n) → Prop where
  | ok {env vs} (hL : LabelsAre ident vs env) (hc : tys vs = Γ) : SameEnd ident Γ (.ok env) (.ok vs)
  | err : SameEnd ident Γ .err .err
  | panic : SameEnd ident Γ .panic .panic

theorem dyn_same (m : Mode) (D : DynSet S V) (d : Decl V) (h : Heap S) (hi : Function.Injective d.ident) (ks : List Nat)
    {Γ : Scope d.group.n} : ∀ (L : List (Nat × Fin d.group.n)) (j : Nat) (vs : Vars V d.group.n) (env : Env V d.group.n),
    (∀ p ∈ L, (d.group.field p.2).kind = .dynamic p.1) → checkAll d.eqZero (tys vs) (dynStmts d.ident j L) = some Γ →
    LabelsAre d.ident vs env → IdsAre vs ks → ks.length = j + L.length →
    SameEnd d.ident Γ (decodeDyn D h L (ks.drop j) env) (runAll m D d h vs (dynStmts d.ident j L))
  | [], j, vs, env, _, hc, hL, _, hl => by
    rw [List.drop_eq_nil_of_le (by simpa using hl.le)]
    exact .ok hL (Option.some.inj hc)
  | (r, i) :: L, j, vs, env, hk, hc, hL, hK, hl => by
    have hs : (d.group.field i).kind = .dynamic r := hk (r, i) (by simp)
    simp only [dynStmts, checkAll, Stmt.check, Expr.ty] at hc
    have hidx : tys vs (dynIndex j) = some .usize := by
      by_contra hne
      rw [if_neg hne] at hc
      simp at hc
    obtain ⟨k, hv⟩ := usize_num hidx
    rw [if_pos hidx] at hc
    simp only [Option.bind_some, Option.map_some] at hc
    have hj := hK j k hv
    have hlt : j < ks.length := by rw [hl]; simp
    have hd : ks.drop j = k :: ks.drop (j + 1) := by
      rw [List.drop_eq_getElem_cons hlt]
      rw [List.getElem?_eq_getElem hlt] at hj
      rw [Option.some.inj hj]
    rw [hd]
    simp only [dynStmts, runAll, Stmt.run, Expr.eval, hs, decodeDyn, num, hv, Out.ok_bind]
    cases he : D.decode (h r) k with
    | err => exact .err
    | panic => exact .panic
    | ok v =>
      simp only [Out.ok_bind]
      refine dyn_same m D d h hi ks L (j + 1) _ _ (fun p hp => hk p (List.mem_cons_of_mem _ hp)) ?_
        (labelsAre_label hi hL i v) (idsAre_label hK _ _ _) (by rw [hl]; simp; omega)
      rw [tys_bind]
      exact hc

theorem unpack_map {α β : Type} (f : α → β) (a : α) (ks : List α) (x : Id) :
    unpack (f a) (ks.map f) x = (unpack a ks x).map f := by
  unfold unpack
  split
  · rfl
  · rw [List.zipIdx_map, List.find?_map, Option.map_map, Option.map_map]
    rfl

theorem unpack_dyn {α : Type} {a : α} {ks : List α} {j : Nat} : unpack a ks (dynIndex j) = ks[j]? := by
  rw [unpack, if_neg (dynIndex_ne j).1]
  by_cases hj : j < ks.length
  · rw [List.getElem?_eq_getElem hj]
    have : (ks.zipIdx.find? fun p => dynIndex p.2 == dynIndex j) = some (ks[j], j) := by
      have hm : (ks[j], j) ∈ ks.zipIdx := by
        rw [List.mem_zipIdx_iff_getElem?]; exact List.getElem?_eq_getElem hj
      cases hf : ks.zipIdx.find? fun p => dynIndex p.2 == dynIndex j with
      | none => exact absurd (List.find?_eq_none.1 hf _ hm) (by simp)
      | some p =>
        have h1 := List.find?_some hf
        have h2 := List.mem_of_find?_eq_some hf
        rw [List.mem_zipIdx_iff_getElem?] at h2
        have h3 : p.2 = j := dynIndex_inj (by simpa using h1)
        rw [h3, List.getElem?_eq_getElem hj] at h2
        rw [Option.some.inj h2, ← h3]
    rw [this]; rfl
  · rw [List.getElem?_eq_none (by omega)]
    cases hf : ks.zipIdx.find? fun p => dynIndex p.2 == dynIndex j with
    | none => rfl
    | some p =>
      have h1 := List.find?_some hf
      have h2 := List.mem_of_find?_eq_some hf
      rw [List.mem_zipIdx_iff_getElem?] at h2
      have h3 : p.2 = j := dynIndex_inj (by simpa using h1)
      rw [h3, List.getElem?_eq_none (by omega)] at h2
      cases h2

/-- At the beginning no variable is a label. -/
theorem unpack_num {n : Nat} (u : Nat) (ks : List Nat) (x : Id) (i : Fin n) (v : V) :
    unpack (Val.num u) (ks.map .num) x ≠ some (Val.label i v) := by
  rw [unpack_map (fun k => (Val.num k : Val V n))]
  intro h
  cases hu : unpack u ks x <;> rw [hu] at h <;> cases h

theorem tys_unpack {n : Nat} (u : Nat) (ks : List Nat) :
    tys (unpack (Val.num u : Val V n) (ks.map .num)) = unpack .usize (ks.map fun _ => .usize) := by
  funext x
  rw [tys, unpack_map (fun k => (Val.num k : Val V n)), unpack_map (fun _ => (Ty.usize : Ty n)), Option.map_map]
  rfl

/-- If `decode` compiles, it decodes. -/
theorem decode_eq {m : Mode} {D : DynSet S V} {d : Decl V} {h : Heap S} {u : Nat × List Nat} (hi : Function.Injective d.ident)
    (hc : Compiles d) (hu : u.2.length = d.group.dynamics.length)
    (hx : m = .release ∨ ∀ i, IsFixed d i → d.ident i = b!"index" → d.eqZero i = none) :
    decode m D d h u = derivedDecode m D d.group h u := by
  obtain ⟨Γ, hc, hm, -, hlab⟩ := hc
  have he : (d.group.dynamics.map fun _ => (Ty.usize : Ty d.group.n)) = u.2.map fun _ => .usize := by
    rw [List.map_const', List.map_const', hu]
  rw [he, ← tys_unpack (V := V) u.1] at hc
  unfold body at hc
  have hsame := fixed_same m D d h hi u.2 _ d.group.fixed u.1 _ (fun _ => none) (fun p hp => (d.group.mem_fixed p.1 p.2).1 hp) hc
    (fun k hk => by rw [unpack, if_pos rfl] at hk; cases hk; rfl) (fun j i v hv => absurd hv (unpack_num _ _ _ _ _))
    (fun j k hk => by
      rw [unpack_dyn, List.getElem?_map] at hk
      cases hg : u.2[j]? <;> rw [hg] at hk <;> cases hk
      rfl) (fun x i v hv => absurd hv (unpack_num _ _ _ _ _))
  unfold decode derivedDecode body
  generalize decodeFixed d.group.fixed u.1 (fun _ => none) = a at hsame ⊢
  generalize runAll m D d h _ _ = b at hsame ⊢
  cases hsame with
  | err => rfl
  | panic => rfl
  | @ok q env vs hI hL hK hO hc' =>
    simp only [Out.ok_bind]
    have key : runAll m D d h vs (.assertZero b!"index" :: dynStmts d.ident 0 d.group.dynamics) =
        (debugAssert m (q = 0) >>= fun _ => runAll m D d h vs (dynStmts d.ident 0 d.group.dynamics)) ∧
        checkAll d.eqZero (tys vs) (dynStmts d.ident 0 d.group.dynamics) = some Γ := by
      simp only [checkAll, Stmt.check] at hc'
      simp only [runAll, Stmt.run]
      cases hv : vs b!"index" with
      | none => simp [tys, hv] at hc'
      | some a =>
        cases a with
        | num k =>
          rw [hI k hv]
          simp only [tys, hv, Option.map_some, Val.ty, Option.bind_some] at hc'
          refine ⟨?_, hc'⟩
          show ((debugAssert m (decide (q = 0)) >>= fun _ => Out.ok vs) >>= fun vs' => runAll m D d h vs' _) = _
          cases debugAssert m (decide (q = 0)) <;> rfl
        | label i v =>
          obtain ⟨ho, hf⟩ := hO _ i v hv
          simp only [tys, hv, Option.map_some, Val.ty] at hc'
          cases hz : d.eqZero i with
          | none => simp [hz] at hc'
          | some z =>
            rcases hx with rfl | hx
            · simp only [hz, Option.isSome_some, if_true, Option.bind_some] at hc'
              refine ⟨?_, hc'⟩
              simp only [hz]
              rfl
            · rw [hx i hf ho.symm] at hz
              cases hz
    rw [key.1]
    cases debugAssert m (q = 0) with
    | err => rfl
    | panic => rfl
    | ok _ =>
      simp only [Out.ok_bind]
      have hd := dyn_same m D d h hi u.2 d.group.dynamics 0 vs env (fun p hp => (d.group.mem_dynamics p.1 p.2).1 hp) key.2 hL hK
        (by rw [hu, Nat.zero_add])
      rw [List.drop_zero] at hd
      generalize decodeDyn D h d.group.dynamics u.2 env = a at hd ⊢
      generalize runAll m D d h vs _ = b at hd ⊢
      cases hd with
      | err => rfl
      | panic => rfl
      | @ok env vs hL hΓ =>
        simp only [Out.ok_bind]
        congr 1
        funext i
        obtain ⟨j, hj⟩ := hlab i (hm i)
        rw [← hΓ] at hj
        cases hv : vs (d.ident i) with
        | none => simp [tys, hv] at hj
        | some a =>
          cases a with
          | num k => simp [tys, hv, Val.ty] at hj
          | label i' v => rw [(hL i i' v hv).2]; rfl

end Measured.Names
