import Verif.Spec.DeriveInput
import Verif.Props.Derive
import Verif.Props.Registry

/-! # Which types the derive macros accept (C77) -/

namespace Measured
open Measured.Spec Measured.Derive

section
variable {α β : Type}

theorem collectAll_spec (f : α → Out β) (l : List α) (hp : ∀ a ∈ l, f a ≠ .panic) :
    collectAll f l ≠ .panic ∧ ((∃ o, collectAll f l = .ok o) ↔ ∀ a ∈ l, ∃ b, f a = .ok b) ∧
    ∀ o, collectAll f l = .ok o → List.Forall₂ (fun a b => f a = .ok b) l o := by
  induction l with
  | nil => exact ⟨by simp [collectAll], ⟨by simp, fun _ => ⟨_, rfl⟩⟩, fun o h => by cases h; exact .nil⟩
  | cons a as ih =>
    obtain ⟨h1, h2, h3⟩ := ih fun a h => hp a (List.mem_cons_of_mem _ h)
    have ha := hp a (List.mem_cons_self ..)
    show (f a).bind _ ≠ _ ∧ ((∃ o, (f a).bind _ = _) ↔ _) ∧ ∀ o, (f a).bind _ = _ → _
    cases hf : f a with
    | panic => exact absurd hf ha
    | err =>
      refine ⟨by simp [Out.bind], ⟨fun ⟨_, h⟩ => (by cases h), fun h => ?_⟩, fun o h => by cases h⟩
      obtain ⟨b, hb⟩ := h a (List.mem_cons_self ..)
      rw [hf] at hb; cases hb
    | ok b =>
      show (collectAll f as).bind _ ≠ _ ∧ ((∃ o, (collectAll f as).bind _ = _) ↔ _) ∧
        ∀ o, (collectAll f as).bind _ = _ → _
      cases hc : collectAll f as with
      | panic => exact absurd hc h1
      | err =>
        refine ⟨by simp [Out.bind], ⟨fun ⟨_, h⟩ => (by cases h), fun h => ?_⟩, fun o h => by cases h⟩
        obtain ⟨o, ho⟩ := h2.2 fun a h' => h a (List.mem_cons_of_mem _ h')
        rw [hc] at ho; cases ho
      | ok bs =>
        refine ⟨by simp [Out.bind], ⟨fun _ x hx => ?_, fun _ => ⟨_, rfl⟩⟩, fun o h => ?_⟩
        · rcases List.mem_cons.1 hx with rfl | hx
          · exact ⟨b, hf⟩
          · exact h2.1 ⟨bs, hc⟩ x hx
        · cases h
          exact .cons hf (h3 _ hc)

theorem head_mem_iff {f : α → Option β} {l : List α} (h : (l.filterMap f).length ≤ 1) (x : β) :
    (l.filterMap f).head? = some x ↔ ∃ y ∈ l, f y = some x := by
  rw [← List.mem_filterMap, ← Option.mem_toList, ← head_of_le_one h]

theorem crateIs_of {P A : Type} {krate : P → A} {kr : A → Option P} (hk : ∀ a p, kr a = some p ↔ a = krate p)
    {args : List A} {dflt : P} (h1 : (args.filterMap kr).length ≤ 1) :
    CrateIs krate args dflt ((args.filterMap kr).head?.getD dflt) := by
  cases h : (args.filterMap kr).head? with
  | some p =>
    obtain ⟨y, hy, hp⟩ := (head_mem_iff h1 p).1 h
    exact .given ((hk y p).1 hp ▸ hy)
  | none =>
    refine .default fun p hp => ?_
    have := (head_mem_iff h1 p).2 ⟨_, hp, (hk _ p).2 rfl⟩
    rw [h] at this; cases this

end

theorem orErr_ok {α : Type} {o : Option α} {a : α} : orErr o = .ok a ↔ o = some a := by
  cases o <;> simp [orErr]

/-! ## `#[derive(LabelGroup)]` -/

section labelGroup
variable {P V : Type}

theorem lg_argList (s s' : LabelGroupAttrs P) (args : List (LabelGroupArg P)) :
    s.argList args = some s' ↔ .bad ∉ args ∧ (s.krate.toList ++ args.filterMap lgCrateArg).length ≤ 1 ∧
      (s.set.toList ++ args.filterMap lgSetArg).length ≤ 1 ∧
      s' = ⟨(s.krate.toList ++ args.filterMap lgCrateArg).head?, (s.set.toList ++ args.filterMap lgSetArg).head?⟩ := by
  induction args generalizing s with
  | nil =>
    obtain ⟨k, t⟩ := s
    cases k <;> cases t <;> simp [LabelGroupAttrs.argList, eq_comm]
  | cons a as ih =>
    obtain ⟨k, t⟩ := s
    simp only [filterMap_cons', LabelGroupAttrs.argList]
    generalize as.filterMap lgCrateArg = K at ih ⊢
    generalize as.filterMap lgSetArg = T at ih ⊢
    cases a <;> cases k <;> cases t <;> simp [LabelGroupAttrs.arg, ih, lgCrateArg, lgSetArg]

theorem lg_argList_append (s : LabelGroupAttrs P) (l r : List (LabelGroupArg P)) :
    s.argList (l ++ r) = (s.argList l).bind fun s => s.argList r := by
  induction l generalizing s with
  | nil => rfl
  | cons a as ih =>
    simp only [List.cons_append, LabelGroupAttrs.argList, Option.bind_assoc]
    cases s.arg a with
    | none => rfl
    | some s => exact ih s

theorem lg_attrList (s : LabelGroupAttrs P) (attrs : List (Option (List (LabelGroupArg P)))) :
    s.attrList attrs = s.argList (argsOf attrs) := by
  induction attrs generalizing s with
  | nil => rfl
  | cons a as ih =>
    cases a with
    | none => exact ih s
    | some args =>
      show (s.argList args).bind _ = s.argList (args ++ argsOf as)
      rw [lg_argList_append]
      congr 1
      exact funext ih

theorem labelField_spec (f : LabelFieldIn P) (hid : f.ident.isSome) : labelField f ≠ .panic ∧
    ((∃ b, labelField f = .ok b) ↔ LabelAttrsOk f.attrs) ∧
    ∀ b, labelField f = .ok b → f.ident = some b.1 ∧ parseLabelField f.attrs = some b.2 := by
  obtain ⟨ident, attrs⟩ := f
  obtain ⟨n, rfl⟩ := Option.isSome_iff_exists.1 hid
  have h := (C58_label_attrs attrs).1
  show (orErr (parseLabelField attrs)).bind _ ≠ _ ∧ ((∃ b, (orErr (parseLabelField attrs)).bind _ = _) ↔ _) ∧
    ∀ b, (orErr (parseLabelField attrs)).bind _ = _ → _
  cases hp : parseLabelField attrs with
  | none =>
    rw [hp] at h
    refine ⟨by simp [orErr, Out.bind], ⟨fun ⟨b, hb⟩ => (by cases hb), fun hok => ?_⟩, fun b hb => by cases hb⟩
    exact absurd (h.2 hok) (by simp)
  | some a =>
    rw [hp] at h
    refine ⟨by simp [orErr, Out.bind, unwrap], ⟨fun _ => h.1 rfl, fun _ => ⟨_, rfl⟩⟩, fun b hb => ?_⟩
    cases hb
    exact ⟨rfl, rfl⟩

/-- C77, `#[derive(LabelGroup)]`: the macro never panics, it accepts exactly structs with named fields, one `set` and at most
one `crate`, whose fields are as C58 says, and it takes over the name of the set, the crate and the fields in their order.
(`syn` gives every named field an identifier.) -/
theorem C77_label_group (dflt : P) (i : LabelGroupIn P V)
    (hsyn : ∀ fs, i.data = .struct (.named fs) → ∀ f ∈ fs, f.ident.isSome) :
    deriveLabelGroup dflt i ≠ .panic ∧ ((∃ o, deriveLabelGroup dflt i = .ok o) ↔ LabelGroupOk i) ∧
    ∀ o, deriveLabelGroup dflt i = .ok o →
      o.ident = i.ident ∧ .set o.set ∈ argsOf i.attrs ∧ CrateIs .krate (argsOf i.attrs) dflt o.krate ∧
      ∃ fs, i.data = .struct (.named fs) ∧
        List.Forall₂ (fun f g => f.ident = some g.1 ∧ parseLabelField f.attrs = some g.2) fs o.fields := by
  obtain ⟨ident, attrs, data⟩ := i
  simp only at hsyn
  have hargs := lg_argList (⟨none, none⟩ : LabelGroupAttrs P)
  have hk : ∀ (a : LabelGroupArg P) p, lgCrateArg a = some p ↔ a = .krate p := fun a p => by
    cases a <;> simp [lgCrateArg]
  have hset : ∀ (a : LabelGroupArg P) p, lgSetArg a = some p ↔ a = .set p := fun a p => by
    cases a <;> simp [lgSetArg]
  unfold deriveLabelGroup
  simp only [lg_attrList]
  cases hA : (⟨none, none⟩ : LabelGroupAttrs P).argList (argsOf attrs) with
  | none =>
    refine ⟨by simp [orErr, bind, Out.bind], ⟨fun ⟨b, hb⟩ => (by cases hb), fun hok => ?_⟩, fun b hb => by cases hb⟩
    have := (hargs _ (argsOf attrs)).2 ⟨hok.known, hok.krate, Nat.le_of_eq hok.set, rfl⟩
    rw [hA] at this; cases this
  | some s =>
    obtain ⟨h1, h2, h3, rfl⟩ := (hargs _ _).1 hA
    simp only [Option.toList_none, List.nil_append] at h2 h3
    simp only [Option.toList_none, List.nil_append, orErr, bind, Out.bind]
    cases hS : ((argsOf attrs).filterMap lgSetArg).head? with
    | none =>
      refine ⟨by simp, ⟨fun ⟨b, hb⟩ => (by cases hb), fun hok => ?_⟩, fun b hb => by cases hb⟩
      have := hok.set
      rw [List.head?_eq_none_iff] at hS
      simp [hS] at this
    | some st =>
      have hst : .set st ∈ argsOf attrs := by
        obtain ⟨y, hy, hp⟩ := (head_mem_iff h3 st).1 hS
        exact (hset y st).1 hp ▸ hy
      have hone : ((argsOf attrs).filterMap lgSetArg).length = 1 := by
        rw [head_of_le_one h3, hS]; rfl
      match data, hsyn with
      | .enum _, _ =>
        exact ⟨by simp, ⟨fun ⟨b, hb⟩ => (by cases hb), fun hok => (by obtain ⟨fs, h, _⟩ := hok.fields; cases h)⟩, fun b hb => by cases hb⟩
      | .union _, _ =>
        exact ⟨by simp, ⟨fun ⟨b, hb⟩ => (by cases hb), fun hok => (by obtain ⟨fs, h, _⟩ := hok.fields; cases h)⟩, fun b hb => by cases hb⟩
      | .struct (.unnamed _), _ =>
        exact ⟨by simp, ⟨fun ⟨b, hb⟩ => (by cases hb), fun hok => (by obtain ⟨fs, h, _⟩ := hok.fields; cases h)⟩, fun b hb => by cases hb⟩
      | .struct .unit, _ =>
        exact ⟨by simp, ⟨fun ⟨b, hb⟩ => (by cases hb), fun hok => (by obtain ⟨fs, h, _⟩ := hok.fields; cases h)⟩, fun b hb => by cases hb⟩
      | .struct (.named fs), hsyn =>
        have hs := fun f hf => labelField_spec f (hsyn fs rfl f hf)
        obtain ⟨c1, c2, c3⟩ := collectAll_spec labelField fs fun f hf => (hs f hf).1
        cases hc : collectAll labelField fs with
        | panic => exact absurd hc c1
        | err =>
          simp only [hc]
          refine ⟨by simp, ⟨fun ⟨b, hb⟩ => (by cases hb), fun hok => ?_⟩, fun b hb => by cases hb⟩
          obtain ⟨fs', h, hf⟩ := hok.fields
          cases h
          obtain ⟨o, ho⟩ := c2.2 fun f h => (hs f h).2.1.2 (hf f h)
          rw [hc] at ho; cases ho
        | ok l =>
          simp only [hc]
          refine ⟨by simp, ⟨fun _ => ⟨h1, h2, hone, fs, rfl, fun f hf => ?_⟩, fun _ => ⟨_, rfl⟩⟩, fun b hb => ?_⟩
          · exact (hs f hf).2.1.1 (c2.1 ⟨l, hc⟩ f hf)
          · cases hb
            refine ⟨rfl, hst, crateIs_of hk h2, fs, rfl, ?_⟩
            exact forall₂_imp_mem (c3 l hc) fun f hf b h => (hs f hf).2.2 b h

end labelGroup

/-! ## `#[derive(MetricGroup)]` -/

section metricGroup
variable {E P I V : Type}

theorem mg_argList (s s' : MetricGroupAttrs P I) (args : List (MetricGroupArg P I)) :
    s.argList args = some s' ↔ .bad ∉ args ∧ (s.krate.toList ++ args.filterMap mgCrateArg).length ≤ 1 ∧
      (s.inputs.toList ++ args.filterMap mgNewArg).length ≤ 1 ∧
      s' = ⟨(s.krate.toList ++ args.filterMap mgCrateArg).head?, (s.inputs.toList ++ args.filterMap mgNewArg).head?⟩ := by
  induction args generalizing s with
  | nil =>
    obtain ⟨k, t⟩ := s
    cases k <;> cases t <;> simp [MetricGroupAttrs.argList, eq_comm]
  | cons a as ih =>
    obtain ⟨k, t⟩ := s
    simp only [filterMap_cons', MetricGroupAttrs.argList]
    generalize as.filterMap mgCrateArg = K at ih ⊢
    generalize as.filterMap mgNewArg = T at ih ⊢
    cases a <;> cases k <;> cases t <;> simp [MetricGroupAttrs.arg, ih, mgCrateArg, mgNewArg]

theorem mg_argList_append (s : MetricGroupAttrs P I) (l r : List (MetricGroupArg P I)) :
    s.argList (l ++ r) = (s.argList l).bind fun s => s.argList r := by
  induction l generalizing s with
  | nil => rfl
  | cons a as ih =>
    simp only [List.cons_append, MetricGroupAttrs.argList, Option.bind_assoc]
    cases s.arg a with
    | none => rfl
    | some s => exact ih s

theorem mg_attrList (s : MetricGroupAttrs P I) (attrs : List (Option (List (MetricGroupArg P I)))) :
    s.attrList attrs = s.argList (argsOf attrs) := by
  induction attrs generalizing s with
  | nil => rfl
  | cons a as ih =>
    cases a with
    | none => exact ih s
    | some args =>
      show (s.argList args).bind _ = s.argList (args ++ argsOf as)
      rw [mg_argList_append]
      congr 1
      exact funext ih

theorem metricField_spec (f : MetricFieldIn E) (hid : f.ident.isSome) : metricField f ≠ .panic ∧
    ((∃ b, metricField f = .ok b) ↔ MetricAttrsOk f.attrs) ∧
    ∀ b, metricField f = .ok b → f.ident = some b.1 ∧ parseMetricField f.attrs = some b.2 := by
  obtain ⟨ident, attrs⟩ := f
  obtain ⟨n, rfl⟩ := Option.isSome_iff_exists.1 hid
  have h := (C58_metric_attrs attrs).1
  show (orErr (parseMetricField attrs)).bind _ ≠ _ ∧ ((∃ b, (orErr (parseMetricField attrs)).bind _ = _) ↔ _) ∧
    ∀ b, (orErr (parseMetricField attrs)).bind _ = _ → _
  cases hp : parseMetricField attrs with
  | none =>
    rw [hp] at h
    refine ⟨by simp [orErr, Out.bind], ⟨fun ⟨b, hb⟩ => (by cases hb), fun hok => ?_⟩, fun b hb => by cases hb⟩
    exact absurd (h.2 hok) (by simp)
  | some a =>
    rw [hp] at h
    refine ⟨by simp [orErr, Out.bind, unwrap], ⟨fun _ => h.1 rfl, fun _ => ⟨_, rfl⟩⟩, fun b hb => ?_⟩
    cases hb
    exact ⟨rfl, rfl⟩

/-- C77, `#[derive(MetricGroup)]`: the macro never panics, it accepts exactly structs with named fields, at most one `new` and
at most one `crate`, whose fields are as C58 says, and it takes over the crate and the fields in their order. There is a
`new` exactly when asked for, with the inputs given, and it fills each field with the expression that the attributes of
the field call for. -/
theorem C77_metric_group (dflt : P) (i : MetricGroupIn E P I V)
    (hsyn : ∀ fs, i.data = .struct (.named fs) → ∀ f ∈ fs, f.ident.isSome) :
    deriveMetricGroupDecl dflt i ≠ .panic ∧ ((∃ o, deriveMetricGroupDecl dflt i = .ok o) ↔ MetricGroupOk i) ∧
    ∀ o, deriveMetricGroupDecl dflt i = .ok o →
      o.ident = i.ident ∧ CrateIs .krate (argsOf i.attrs) dflt o.krate ∧
      ∃ fs, i.data = .struct (.named fs) ∧
        List.Forall₂ (fun f g => f.ident = some g.1 ∧ parseMetricField f.attrs = some g.2) fs o.fields ∧
        ∀ (std : E) ins inits, newFn std o = some (ins, inits) ↔ .new ins ∈ argsOf i.attrs ∧
          List.Forall₂ (fun f g => f.ident = some g.1 ∧ StartsWith std f.attrs g.2) fs inits := by
  obtain ⟨ident, attrs, data⟩ := i
  simp only at hsyn
  have hargs := mg_argList (⟨none, none⟩ : MetricGroupAttrs P I)
  have hk : ∀ (a : MetricGroupArg P I) p, mgCrateArg a = some p ↔ a = .krate p := fun a p => by
    cases a <;> simp [mgCrateArg]
  have hnew : ∀ (a : MetricGroupArg P I) p, mgNewArg a = some p ↔ a = .new p := fun a p => by
    cases a <;> simp [mgNewArg]
  unfold deriveMetricGroupDecl
  simp only [mg_attrList]
  cases hA : (⟨none, none⟩ : MetricGroupAttrs P I).argList (argsOf attrs) with
  | none =>
    refine ⟨by simp [orErr, bind, Out.bind], ⟨fun ⟨b, hb⟩ => (by cases hb), fun hok => ?_⟩, fun b hb => by cases hb⟩
    have := (hargs _ (argsOf attrs)).2 ⟨hok.known, hok.krate, hok.new, rfl⟩
    rw [hA] at this; cases this
  | some s =>
    obtain ⟨h1, h2, h3, rfl⟩ := (hargs _ _).1 hA
    simp only [Option.toList_none, List.nil_append] at h2 h3
    simp only [Option.toList_none, List.nil_append, orErr, bind, Out.bind]
    match data, hsyn with
    | .enum _, _ =>
      exact ⟨by simp, ⟨fun ⟨b, hb⟩ => (by cases hb), fun hok => (by obtain ⟨fs, h, _⟩ := hok.fields; cases h)⟩, fun b hb => by cases hb⟩
    | .union _, _ =>
      exact ⟨by simp, ⟨fun ⟨b, hb⟩ => (by cases hb), fun hok => (by obtain ⟨fs, h, _⟩ := hok.fields; cases h)⟩, fun b hb => by cases hb⟩
    | .struct (.unnamed _), _ =>
      exact ⟨by simp, ⟨fun ⟨b, hb⟩ => (by cases hb), fun hok => (by obtain ⟨fs, h, _⟩ := hok.fields; cases h)⟩, fun b hb => by cases hb⟩
    | .struct .unit, _ =>
      exact ⟨by simp, ⟨fun ⟨b, hb⟩ => (by cases hb), fun hok => (by obtain ⟨fs, h, _⟩ := hok.fields; cases h)⟩, fun b hb => by cases hb⟩
    | .struct (.named fs), hsyn =>
      have hs := fun f hf => metricField_spec f (hsyn fs rfl f hf)
      obtain ⟨c1, c2, c3⟩ := collectAll_spec metricField fs fun f hf => (hs f hf).1
      cases hc : collectAll metricField fs with
      | panic => exact absurd hc c1
      | err =>
        simp only [hc]
        refine ⟨by simp, ⟨fun ⟨b, hb⟩ => (by cases hb), fun hok => ?_⟩, fun b hb => by cases hb⟩
        obtain ⟨fs', h, hf⟩ := hok.fields
        cases h
        obtain ⟨o, ho⟩ := c2.2 fun f h => (hs f h).2.1.2 (hf f h)
        rw [hc] at ho; cases ho
      | ok l =>
        simp only [hc]
        refine ⟨by simp, ⟨fun _ => ⟨h1, h2, h3, fs, rfl, fun f hf => ?_⟩, fun _ => ⟨_, rfl⟩⟩, fun b hb => ?_⟩
        · exact (hs f hf).2.1.1 (c2.1 ⟨l, hc⟩ f hf)
        · cases hb
          have hfl := forall₂_imp_mem (c3 l hc) fun f hf b h => (hs f hf).2.2 b h
          refine ⟨rfl, crateIs_of hk h2, fs, rfl, hfl, fun std ins inits => ?_⟩
          simp only [newFn, Option.map_eq_some_iff, Prod.mk.injEq]
          have hn : ∀ x, ((argsOf attrs).filterMap mgNewArg).head? = some x ↔ .new x ∈ argsOf attrs := fun x => by
            rw [head_mem_iff h3]
            exact ⟨fun ⟨y, hy, h⟩ => (hnew y x).1 h ▸ hy, fun h => ⟨_, h, (hnew _ x).2 rfl⟩⟩
          have hin : ∀ inits, l.map (fun f => (f.1, initExpr std f.2.init)) = inits ↔
              List.Forall₂ (fun f g => f.ident = some g.1 ∧ StartsWith std f.attrs g.2) fs inits := by
            clear hc c3 c2 c1 hs hsyn
            intro inits
            induction hfl generalizing inits with
            | nil => cases inits <;> simp
            | @cons f g fs l h _ ih =>
              have hst : ∀ e, StartsWith std f.attrs e ↔ e = initExpr std g.2.init :=
                ((C58_metric_attrs f.attrs).2 _ h.2).2.2 std
              cases inits with
              | nil => simp
              | cons x xs =>
                obtain ⟨n, e⟩ := x
                simp only [List.map_cons, List.cons.injEq, Prod.mk.injEq, List.forall₂_cons, hst, ih, h.1, Option.some.injEq]
                constructor
                · rintro ⟨⟨rfl, rfl⟩, h⟩; exact ⟨⟨rfl, rfl⟩, h⟩
                · rintro ⟨⟨rfl, rfl⟩, h⟩; exact ⟨⟨rfl, rfl⟩, h⟩
          constructor
          · rintro ⟨x, hx, rfl, h⟩
            exact ⟨(hn x).1 hx, (hin _).1 h⟩
          · rintro ⟨hx, h⟩
            exact ⟨ins, (hn _).2 hx, rfl, (hin _).2 h⟩

end metricGroup

/-! ## `#[derive(FixedCardinalityLabel)]` -/

section label
variable {P F : Type}

theorem variantArgs_iff (s s' : Option Bytes) (args : List VariantArg) :
    variantArgs s args = some s' ↔ .bad ∉ args ∧ s.toList.length + args.length ≤ 1 ∧
      ∀ x, s' = some x ↔ s = some x ∨ .rename x ∈ args := by
  induction args generalizing s with
  | nil =>
    cases s <;> cases s' <;> simp [variantArgs, eq_comm]
  | cons a as ih =>
    cases a with
    | bad => simp [variantArgs, variantArg]
    | rename r =>
      cases s with
      | some y => simp [variantArgs, variantArg]
      | none =>
        simp only [variantArgs, variantArg, Option.isSome_none, Bool.false_eq_true, if_false, Option.bind_some, ih]
        simp only [List.mem_cons, Option.toList, List.length_cons, List.length_nil, reduceCtorEq, false_or,
          VariantArg.rename.injEq, Option.some.injEq, eq_comm]
        exact and_congr_right fun _ => and_congr_left fun _ => by omega

theorem variantArgs_append (s : Option Bytes) (l r : List VariantArg) :
    variantArgs s (l ++ r) = (variantArgs s l).bind fun s => variantArgs s r := by
  induction l generalizing s with
  | nil => rfl
  | cons a as ih =>
    simp only [List.cons_append, variantArgs, Option.bind_assoc]
    cases variantArg s a with
    | none => rfl
    | some s => exact ih s

theorem variantAttrs_eq (s : Option Bytes) (attrs : List (Option (List VariantArg))) :
    variantAttrs s attrs = variantArgs s (argsOf attrs) := by
  induction attrs generalizing s with
  | nil => rfl
  | cons a as ih =>
    cases a with
    | none => exact ih s
    | some args =>
      show (variantArgs s args).bind _ = variantArgs s (args ++ argsOf as)
      rw [variantArgs_append]
      congr 1
      exact funext ih

theorem enumVariant_spec (v : VariantIn F) : enumVariant v ≠ .panic ∧
    ((∃ b, enumVariant v = .ok b) ↔ VariantOk v) ∧ ∀ b, enumVariant v = .ok b → VariantRead v b := by
  obtain ⟨ident, attrs, fields, disc⟩ := v
  unfold enumVariant
  simp only [variantAttrs_eq]
  cases hA : variantArgs none (argsOf attrs) with
  | none =>
    refine ⟨by simp [orErr, bind, Out.bind], ⟨fun ⟨b, hb⟩ => (by cases hb), fun hok => ?_⟩, fun b hb => by cases hb⟩
    have : ∃ s', variantArgs none (argsOf attrs) = some s' := by
      have h1 := hok.known
      have h2 := hok.rename
      simp only at h1 h2
      match hl : argsOf attrs, h1, h2 with
      | [], _, _ => exact ⟨_, rfl⟩
      | [.rename r], _, _ => exact ⟨some r, rfl⟩
      | [.bad], h1, _ => simp at h1
    obtain ⟨s', h⟩ := this
    rw [hA] at h; cases h
  | some s =>
    obtain ⟨h1, h2, h3⟩ := (variantArgs_iff none s _).1 hA
    have h2' : (argsOf attrs).length ≤ 1 := by simpa using h2
    have h3' : ∀ x, s = some x ↔ .rename x ∈ argsOf attrs := fun x => by simpa using h3 x
    simp only [orErr, bind, Out.bind]
    match fields with
    | .named _ =>
      exact ⟨by simp, ⟨fun ⟨b, hb⟩ => (by cases hb), fun hok => (by cases hok.fields)⟩, fun b hb => by cases hb⟩
    | .unnamed _ =>
      exact ⟨by simp, ⟨fun ⟨b, hb⟩ => (by cases hb), fun hok => (by cases hok.fields)⟩, fun b hb => by cases hb⟩
    | .unit =>
      match disc with
      | none =>
        exact ⟨by simp, ⟨fun _ => ⟨h1, h2', rfl, by simp⟩, fun _ => ⟨_, rfl⟩⟩, fun b hb => by
          cases hb; exact ⟨rfl, h3', by simp⟩⟩
      | some (.int n) =>
        exact ⟨by simp [discValue], ⟨fun _ => ⟨h1, h2', rfl, by simp⟩, fun _ => ⟨_, rfl⟩⟩, fun b hb => by
          cases hb; exact ⟨rfl, h3', by simp [eq_comm]⟩⟩
      | some .lit =>
        exact ⟨by simp [discValue], ⟨fun ⟨b, hb⟩ => (by cases hb), fun hok => (by
          obtain ⟨n, h⟩ := hok.disc _ rfl; cases h)⟩, fun b hb => by cases hb⟩
      | some .other =>
        exact ⟨by simp [discValue], ⟨fun ⟨b, hb⟩ => (by cases hb), fun hok => (by
          obtain ⟨n, h⟩ := hok.disc _ rfl; cases h)⟩, fun b hb => by cases hb⟩

/-- C77, `#[derive(FixedCardinalityLabel)]`: the macro never panics, it accepts exactly enums whose variants have no fields, at
most one `rename` each, and discriminants that are integer literals if present (so no negative ones), with each of `crate`,
`rename_all` and `singleton` at most once. What it goes on with is the name of the enum, the crate, the case (snake case if
not given), the singleton name and the variants in their order. -/
theorem C77_enum (dflt : P) (i : EnumIn P F) :
    deriveEnum dflt i ≠ .panic ∧ ((∃ o, deriveEnum dflt i = .ok o) ↔ EnumOk i) ∧
    ∀ o, deriveEnum dflt i = .ok o →
      o.ident = i.ident ∧
      (∃ argss : List (List (EnumArg P)), i.attrs = argss.map writtenArgs ∧
        CrateIs .krate argss.flatten dflt o.krate ∧
        (∀ s, o.singleton = some s ↔ .singleton s ∈ argss.flatten) ∧
        ((∃ s, (s, o.renameAll) ∈ caseNames ∧ .renameAll s ∈ argss.flatten) ∨
          (o.renameAll = .snake ∧ ∀ s, .renameAll s ∉ argss.flatten))) ∧
      ∃ vs, i.data = .enum vs ∧ List.Forall₂ VariantRead vs o.variants := by
  obtain ⟨ident, attrs, data⟩ := i
  unfold deriveEnum
  simp only
  have hk : ∀ (a : EnumArg P) p, krateArg a = some p ↔ a = .krate p := fun a p => by
    cases a <;> simp [krateArg]
  cases hA : (⟨none, none, none⟩ : EnumAttrs P).parseAttrs attrs with
  | none =>
    refine ⟨by simp [orErr, bind, Out.bind], ⟨fun ⟨b, hb⟩ => (by cases hb), fun hok => ?_⟩, fun b hb => by cases hb⟩
    obtain ⟨argss, rfl, hargs⟩ := hok.attrs
    have ha := (parseAttrs_iff _ ⟨_, _, _⟩ (argss.map writtenArgs)).2 ⟨argss, rfl, (argFold_iff _ _).2 ⟨hargs, rfl, rfl, rfl⟩⟩
    rw [ha] at hA; cases hA
  | some s =>
    obtain ⟨argss, rfl, h1, h2, h3, h4⟩ := (C58_enum_attrs _ _).1 hA
    simp only [orErr, bind, Out.bind]
    match data with
    | .struct _ =>
      exact ⟨by simp, ⟨fun ⟨b, hb⟩ => (by cases hb), fun hok => (by obtain ⟨fs, h, _⟩ := hok.variants; cases h)⟩, fun b hb => by cases hb⟩
    | .union _ =>
      exact ⟨by simp, ⟨fun ⟨b, hb⟩ => (by cases hb), fun hok => (by obtain ⟨fs, h, _⟩ := hok.variants; cases h)⟩, fun b hb => by cases hb⟩
    | .enum vs =>
      have hs := fun v : VariantIn F => enumVariant_spec v
      obtain ⟨c1, c2, c3⟩ := collectAll_spec enumVariant vs fun f _ => (hs f).1
      cases hc : collectAll enumVariant vs with
      | panic => exact absurd hc c1
      | err =>
        simp only [hc]
        refine ⟨by simp, ⟨fun ⟨b, hb⟩ => (by cases hb), fun hok => ?_⟩, fun b hb => by cases hb⟩
        obtain ⟨fs', h, hf⟩ := hok.variants
        cases h
        obtain ⟨o, ho⟩ := c2.2 fun f h => (hs f).2.1.2 (hf f h)
        rw [hc] at ho; cases ho
      | ok l =>
        simp only [hc]
        refine ⟨by simp, ⟨fun _ => ⟨⟨argss, rfl, h1⟩, vs, rfl, fun f hf => ?_⟩, fun _ => ⟨_, rfl⟩⟩, fun b hb => ?_⟩
        · exact (hs f).2.1.1 (c2.1 ⟨l, hc⟩ f hf)
        · cases hb
          refine ⟨rfl, ⟨argss, rfl, ?_, h3, ?_⟩, vs, rfl, forall₂_imp_mem (c3 l hc) fun f _ b h => (hs f).2.2 b h⟩
          · cases hkr : s.krate with
            | some p => exact .given ((h2 p).1 hkr)
            | none => exact .default fun p hp => by have := (h2 p).2 hp; rw [hkr] at this; cases this
          · cases hr : s.renameAll with
            | some c => exact .inl ((h4 c).1 hr)
            | none =>
              refine .inr ⟨rfl, fun x hx => ?_⟩
              obtain ⟨c, hc⟩ := h1.documented x (List.mem_filterMap.2 ⟨_, hx, rfl⟩)
              have := (h4 c).2 ⟨x, hc, hx⟩
              rw [hr] at this; cases this

end label

/-! ### Examples -/

namespace DeriveExample

/-- `#[label(set = Set)] struct L { #[label(rename = "k")] a: A, #[label(dynamic_with = Rodeo)] b: &str }` -/
def labels : LabelGroupIn String Unit :=
  ⟨b!"L", [none, some [.set b!"Set"]], .struct (.named
    [⟨some b!"a", [some [.rename b!"k"]]⟩, ⟨some b!"b", [some [.dynamicWith "Rodeo"]]⟩])⟩

theorem labels_named : ∀ fs, labels.data = .struct (.named fs) → ∀ f ∈ fs, f.ident.isSome := by
  rintro fs h f hf
  cases h
  revert f
  decide

example : deriveLabelGroup "::measured" labels = .ok ⟨"::measured", b!"Set", b!"L",
    [(b!"a", ⟨.fixed, true, some b!"k"⟩), (b!"b", ⟨.dynamicWith "Rodeo", false, none⟩)]⟩ := by decide +kernel

example : LabelGroupOk labels := (C77_label_group "::measured" labels labels_named).2.1.1 ⟨_, rfl⟩

/-- Without `set`, or as a tuple struct, it does not compile. -/
example : deriveLabelGroup "::measured" { labels with attrs := [] } = .err ∧
    deriveLabelGroup (V := Unit) "::measured" { labels with data := .struct (.unnamed []) } = .err := by decide +kernel

/-- `#[metric(new(n: usize))] struct M { #[metric(init = f(n))] a: A, b: B }` -/
def metrics : MetricGroupIn String String String Unit :=
  ⟨b!"M", [some [.new "n: usize"]], .struct (.named
    [⟨some b!"a", [.metric [.init "f(n)"]]⟩, ⟨some b!"b", [.other]⟩])⟩

theorem metrics_named : ∀ fs, metrics.data = .struct (.named fs) → ∀ f ∈ fs, f.ident.isSome := by
  rintro fs h f hf
  cases h
  revert f
  decide

example : MetricGroupOk metrics := (C77_metric_group "::measured" metrics metrics_named).2.1.1 ⟨_, rfl⟩

example : ∃ o, deriveMetricGroupDecl "::measured" metrics = .ok o ∧
    newFn "Default::default()" o = some ("n: usize", [(b!"a", .raw "f(n)"), (b!"b", .default)]) :=
  ⟨_, rfl, by decide +kernel⟩

/-- `enum K { #[label(rename = "x")] A, B = 3, C }` -/
def kind : EnumIn String Unit :=
  ⟨b!"K", [writtenArgs [.singleton b!"kind"]], .enum
    [⟨b!"A", [none, some [.rename b!"x"]], .unit, none⟩, ⟨b!"B", [], .unit, some (.int 3)⟩, ⟨b!"C", [], .unit, none⟩]⟩

example : deriveEnum "::measured" kind = .ok ⟨"::measured", .snake, b!"K",
    [⟨b!"A", some b!"x", none⟩, ⟨b!"B", none, some 3⟩, ⟨b!"C", none, none⟩], some b!"kind"⟩ := by decide +kernel

example : EnumOk kind := (C77_enum "::measured" kind).2.1.1 ⟨_, rfl⟩

/-- A variant with fields, `B = -1`, and a variant renamed twice do not compile. -/
example : enumVariant (⟨b!"A", [], .unnamed [()], none⟩ : VariantIn Unit) = .err ∧
    enumVariant (⟨b!"B", [], .unit, some .other⟩ : VariantIn Unit) = .err ∧
    enumVariant (⟨b!"A", [some [.rename b!"x"], some [.rename b!"x"]], .unit, none⟩ : VariantIn Unit) = .err := by
  decide +kernel

end DeriveExample

end Measured
