import Verif.Model.EncodeConc
import Verif.Proof.DerivedGroup
import Verif.Proof.Atomic

/-! # Label ids when several threads encode and decode -/

namespace Measured.Conc
open Measured.Spec
variable {S V : Type} {D : DynSet S V} {inv : S → Prop} {le : S → S → Prop} {valid : S → Nat → Prop}

/-- The ids `ks` stand for the values of the given dynamic fields of `g`. -/
def HoldsDyn (D : DynSet S V) (valid : S → Nat → Prop) {n : Nat} (h : Heap S) (g : Fin n → V) :
    List (Nat × Fin n) → List Nat → Prop :=
  List.Forall₂ fun p k => valid (h p.1) k ∧ D.decode (h p.1) k = .ok (g p.2)

theorem holdsDyn_grow (L : DynSetLaws D inv le valid) {n : Nat} {h h' : Heap S} (hh : HeapInv inv h)
    (hh' : HeapInv inv h') (hle : HeapLe le h h') {g : Fin n → V} {l : List (Nat × Fin n)} {ks : List Nat}
    (hk : HoldsDyn D valid h g l ks) : HoldsDyn D valid h' g l ks := by
  refine List.Forall₂.imp (fun p k hp => ?_) hk
  obtain ⟨a, b⟩ := L.stable _ _ _ (hh p.1) (hh' p.1) (hle p.1) hp.1
  exact ⟨a, b.trans hp.2⟩

theorem holdsDyn_unique (L : DynSetLaws D inv le valid) {n : Nat} {h : Heap S} (hh : HeapInv inv h)
    {g : Fin n → V} {l : List (Nat × Fin n)} {ks ks' : List Nat} (hk : HoldsDyn D valid h g l ks)
    (hk' : HoldsDyn D valid h g l ks') : ks = ks' := by
  unfold HoldsDyn at hk hk'
  induction hk generalizing ks' with
  | nil => cases hk'; rfl
  | cons hp _ ih =>
    cases hk' with
    | cons hp' hr' =>
      obtain ⟨v, a, b⟩ := L.valid_enc _ _ (hh _) hp.1
      obtain ⟨v', a', b'⟩ := L.valid_enc _ _ (hh _) hp'.1
      rw [hp.2] at a; cases a
      rw [hp'.2] at a'; cases a'
      rw [b] at b'
      simp only [Prod.mk.injEq, Option.some.injEq] at b'
      rw [b'.1, ih hr']

theorem holdsDyn_decode {n : Nat} {h : Heap S} {g : Fin n → V} {l : List (Nat × Fin n)} {ks : List Nat}
    (hk : HoldsDyn D valid h g l ks) (env : Env V n) :
    decodeDyn D h l ks env = .ok (fun j => if j ∈ l.map Prod.snd then some (g j) else env j) := by
  unfold HoldsDyn at hk
  induction hk generalizing env with
  | nil => simp [decodeDyn]
  | @cons p k l ks hp _ ih =>
    obtain ⟨r, i⟩ := p
    simp only at hp
    simp only [decodeDyn, hp.2, Out.ok_bind, ih]
    congr 1
    funext j
    by_cases hj : j ∈ l.map Prod.snd
    · simp [hj]
    · by_cases hji : j = i
      · subst hji; simp [hj, Env.bind]
      · simp [hj, hji, Env.bind]

/-- What holds of a thread. -/
def LabelPcOk (D : DynSet S V) (valid : S → Nat → Prop) (d : GroupDef V) (tr : List (LabelEvent V d.n))
    (h : Heap S) : LabelPc V d.n → Prop
  | .idle => True
  | .encoding g index ks rest => Rep g d.fixed index ∧
      ∃ pre, d.dynamics = pre ++ rest ∧ HoldsDyn D valid h g pre ks
  | .decoding u env rest ks => ∃ t g, .encoded t g (some u) ∈ tr ∧ ∃ pre,
      d.dynamics = pre ++ rest ∧ HoldsDyn D valid h g rest ks ∧
      env = fun j => if j ∈ pre.map Prod.snd ∨ j ∈ d.fixed.map Prod.snd then some (g j) else none

/-- The invariant of a run. -/
structure LabelInv (D : DynSet S V) (inv : S → Prop) (valid : S → Nat → Prop) (d : GroupDef V)
    (tr : List (LabelEvent V d.n)) (s : LabelSys S V d.n) : Prop where
  heap : HeapInv inv s.heap
  enc : ∀ t g u, .encoded t g (some u) ∈ tr → Rep g d.fixed u.1 ∧ HoldsDyn D valid s.heap g d.dynamics u.2
  ids : ∀ u ∈ s.ids, ∃ t g, .encoded t g (some u) ∈ tr
  pc : ∀ t, LabelPcOk D valid d tr s.heap (s.pc t)
  dec : ∀ t u g, .decoded t u g ∈ tr → ∃ t', .encoded t' g (some u) ∈ tr
  calm : ∀ t, .panic t ∉ tr

theorem LabelPcOk.mono (L : DynSetLaws D inv le valid) {d : GroupDef V} {tr tr' : List (LabelEvent V d.n)}
    {h h' : Heap S} (hh : HeapInv inv h) (hh' : HeapInv inv h') (hle : HeapLe le h h')
    (hsub : ∀ e ∈ tr, e ∈ tr') {p : LabelPc V d.n} (hp : LabelPcOk D valid d tr h p) :
    LabelPcOk D valid d tr' h' p := by
  cases p with
  | idle => trivial
  | encoding g index ks rest =>
    obtain ⟨a, pre, b, c⟩ := hp
    exact ⟨a, pre, b, holdsDyn_grow L hh hh' hle c⟩
  | decoding u env rest ks =>
    obtain ⟨t, g, a, pre, b, c, e⟩ := hp
    exact ⟨t, g, hsub _ a, pre, b, holdsDyn_grow L hh hh' hle c, e⟩

/-- A step that adds no result. -/
theorem LabelInv.quiet (L : DynSetLaws D inv le valid) {d : GroupDef V} {tr : List (LabelEvent V d.n)}
    {s s' : LabelSys S V d.n} (I : LabelInv D inv valid d tr s) (e : LabelEvent V d.n)
    (hh' : HeapInv inv s'.heap) (hle : HeapLe le s.heap s'.heap)
    (hids : ∀ u ∈ s'.ids, u ∈ s.ids ∨ ∃ t g, e = .encoded t g (some u))
    (hpc : ∀ t, s'.pc t = s.pc t ∨ LabelPcOk D valid d (tr ++ [e]) s'.heap (s'.pc t))
    (henc : ∀ t g u, e = .encoded t g (some u) →
      Rep g d.fixed u.1 ∧ HoldsDyn D valid s'.heap g d.dynamics u.2)
    (hdec : ∀ t u g, e = .decoded t u g → ∃ t', .encoded t' g (some u) ∈ tr)
    (hcalm : ∀ t, e ≠ .panic t) : LabelInv D inv valid d (tr ++ [e]) s' where
  heap := hh'
  enc t g u h := by
    rcases List.mem_append.1 h with h | h
    · exact ⟨(I.enc t g u h).1, holdsDyn_grow L I.heap hh' hle (I.enc t g u h).2⟩
    · exact henc t g u (List.mem_singleton.1 h).symm
  ids u hu := by
    rcases hids u hu with h | ⟨t, g, h⟩
    · obtain ⟨t, g, h⟩ := I.ids u h
      exact ⟨t, g, List.mem_append_left _ h⟩
    · exact ⟨t, g, by rw [h]; simp⟩
  pc t := by
    rcases hpc t with h | h
    · rw [h]; exact (I.pc t).mono L I.heap hh' hle (fun _ h => List.mem_append_left _ h)
    · exact h
  dec t u g h := by
    rcases List.mem_append.1 h with h | h
    · obtain ⟨t', h⟩ := I.dec t u g h
      exact ⟨t', List.mem_append_left _ h⟩
    · obtain ⟨t', h⟩ := hdec t u g (List.mem_singleton.1 h).symm
      exact ⟨t', List.mem_append_left _ h⟩
  calm t h := by
    rcases List.mem_append.1 h with h | h
    · exact I.calm t h
    · exact hcalm t (List.mem_singleton.1 h).symm

theorem labelGoto_pc {n : Nat} {P : LabelPc V n → Prop} (s : LabelSys S V n) (t : Tid) (p : LabelPc V n) (hp : P p) :
    ∀ t', (s.goto t p).pc t' = s.pc t' ∨ P ((s.goto t p).pc t') := by
  intro t'
  simp only [LabelSys.goto]
  by_cases h : t' = t
  · rw [if_pos h]; exact .inr hp
  · rw [if_neg h]; exact .inl rfl

theorem label_inv (m : Mode) (L : DynSetLaws D inv le valid) (d : GroupDef V) (hl : AllLawful d.fixed)
    (P : Nat) (hP : checkedCards d.fixed (some 1) = some P) (h : Heap S) (hh : HeapInv inv h)
    {tr : List (LabelEvent V d.n)} {s : LabelSys S V d.n}
    (he : Exec (LabelStep m D d) (.start h) tr s) : LabelInv D inv valid d tr s := by
  induction he with
  | nil => exact ⟨hh, by simp, by simp [LabelSys.start], fun _ => trivial, by simp, by simp⟩
  | @snoc tr s e s' _ hst I =>
    have grow : ∀ r v k x, D.encode (s.heap r) v = (k, x) →
        HeapInv inv (s.heap.set r x) ∧ HeapLe le s.heap (s.heap.set r x) := by
      intro r v k x hx
      have := heap_set_step L I.heap r v
      rwa [hx] at this
    cases hst with
    | @encodeStart t g index hpc hf =>
      refine I.quiet L _ I.heap (heapLe_refl L _) (fun u hu => .inl hu) (labelGoto_pc _ _ _ ?_)
        (by simp) (by simp) (by simp)
      rcases encodeFixed_spec m g d.fixed hl 1 0 P hP (by omega) (by decide) with ⟨N, hN, e⟩ | ⟨_, e⟩ <;>
        rw [e] at hf
      · simp only [Nat.zero_add, Nat.one_mul, Out.ok.injEq, Option.some.injEq] at hf
        subst hf
        exact ⟨hN, [], rfl, .nil⟩
      · simp at hf
    | @encodeRefused t g hpc hf =>
      exact I.quiet L _ I.heap (heapLe_refl L _) (fun u hu => .inl hu) (fun _ => .inl rfl)
        (by simp) (by simp) (by simp)
    | @encodePanic t g hpc hf =>
      rcases encodeFixed_spec m g d.fixed hl 1 0 P hP (by omega) (by decide) with ⟨N, hN, e⟩ | ⟨_, e⟩ <;>
        rw [e] at hf <;> simp at hf
    | @intern t g index ks r i rest k x hpc hx =>
      obtain ⟨g1, g2⟩ := grow _ _ _ _ hx
      refine I.quiet L _ g1 g2 (fun u hu => .inl hu) (labelGoto_pc _ _ _ ?_) (by simp) (by simp) (by simp)
      have hI := I.pc t
      rw [hpc] at hI
      obtain ⟨a, pre, b, c⟩ := hI
      refine ⟨a, pre ++ [(r, i)], by simp [b], ?_⟩
      refine List.rel_append (holdsDyn_grow L I.heap g1 g2 c) (.cons ?_ .nil)
      have := L.enc_dec _ _ _ _ (I.heap r) hx
      simpa [Heap.set, LabelSys.goto] using this
    | @internRefused t g index ks r i rest x hpc hx =>
      obtain ⟨g1, g2⟩ := grow _ _ _ _ hx
      exact I.quiet L _ g1 g2 (fun u hu => .inl hu) (labelGoto_pc _ _ _ trivial) (by simp) (by simp) (by simp)
    | @encodeEnd t g index ks hpc =>
      have hI := I.pc t
      rw [hpc] at hI
      obtain ⟨a, pre, b, c⟩ := hI
      rw [List.append_nil] at b
      subst b
      refine I.quiet L _ I.heap (heapLe_refl L _) ?_ (labelGoto_pc _ _ _ trivial) ?_ (by simp) (by simp)
      · intro u hu
        simp only [LabelSys.goto, List.mem_cons] at hu
        rcases hu with rfl | hu
        · exact .inr ⟨t, g, rfl⟩
        · exact .inl hu
      · intro t' g' u heq
        simp only [LabelEvent.encoded.injEq, Option.some.injEq] at heq
        obtain ⟨_, rfl, rfl⟩ := heq
        exact ⟨a, c⟩
    | @decodeStart t u index env hpc hu hf _ =>
      refine I.quiet L _ I.heap (heapLe_refl L _) (fun u hu => .inl hu) (labelGoto_pc _ _ _ ?_)
        (by simp) (by simp) (by simp)
      obtain ⟨t', g, hg⟩ := I.ids u hu
      obtain ⟨hN, hk⟩ := I.enc _ _ _ hg
      rw [decodeFixed_rep g d.fixed hl u.1 hN] at hf
      simp only [Out.ok.injEq, Prod.mk.injEq] at hf
      obtain ⟨_, rfl⟩ := hf
      exact ⟨t', g, List.mem_append_left _ hg, [], rfl, hk, by
        funext j; simp only [List.map_nil, List.not_mem_nil, false_or]⟩
    | @decodePanic t u hpc hu hf =>
      obtain ⟨t', g, hg⟩ := I.ids u hu
      obtain ⟨hN, hk⟩ := I.enc _ _ _ hg
      refine (hf _ _ (decodeFixed_rep g d.fixed hl u.1 hN _) ?_).elim
      simp [debugAssert_true]
    | @resolve t u env r i rest k ks v hpc hv =>
      refine I.quiet L _ I.heap (heapLe_refl L _) (fun u hu => .inl hu) (labelGoto_pc _ _ _ ?_)
        (by simp) (by simp) (by simp)
      have hI := I.pc t
      rw [hpc] at hI
      obtain ⟨t', g, hg, pre, b, c, rfl⟩ := hI
      cases c with
      | cons c1 c2 =>
        simp only at c1
        rw [c1.2] at hv
        cases hv
        refine ⟨t', g, List.mem_append_left _ hg, pre ++ [(r, i)], by simp [b], c2, ?_⟩
        funext j
        simp only [Env.bind]
        by_cases hji : j = i
        · subst hji; simp
        · have h1 : (j ∈ (pre ++ [(r, i)]).map Prod.snd ∨ j ∈ d.fixed.map Prod.snd)
              = (j ∈ pre.map Prod.snd ∨ j ∈ d.fixed.map Prod.snd) := by
            simp only [List.map_append, List.map_cons, List.map_nil, List.mem_append, List.mem_singleton, hji,
              or_false]
          rw [if_neg hji]
          simp only [h1]
    | @resolvePanic t u env r i rest k ks hpc hv =>
      have hI := I.pc t
      rw [hpc] at hI
      obtain ⟨t', g, hg, pre, b, c, _⟩ := hI
      cases c with
      | cons c1 c2 => exact (hv _ c1.2).elim
    | @decodeEnd t u env g hpc hb =>
      have hI := I.pc t
      rw [hpc] at hI
      obtain ⟨t', g', hg, pre, b, c, rfl⟩ := hI
      rw [List.append_nil] at b
      subst b
      refine I.quiet L _ I.heap (heapLe_refl L _) (fun u hu => .inl hu) (labelGoto_pc _ _ _ trivial)
        (by simp) ?_ (by simp)
      intro t'' u' g'' heq
      simp only [LabelEvent.decoded.injEq] at heq
      obtain ⟨_, rfl, rfl⟩ := heq
      have : (fun j => if j ∈ d.dynamics.map Prod.snd ∨ j ∈ d.fixed.map Prod.snd then some (g' j) else none)
          = fun j => some (g' j) := by
        funext j
        rw [if_pos (d.covered j).symm]
      rw [this, buildGroup_some] at hb
      cases hb
      exact ⟨t', hg⟩
    | @foreign t r v k x hx =>
      obtain ⟨g1, g2⟩ := grow _ _ _ _ hx
      exact I.quiet L _ g1 g2 (fun u hu => .inl hu) (fun _ => .inl rfl) (by simp) (by simp) (by simp)
    | @decodeEndPanic t u env rest ks hpc hb =>
      have hI := I.pc t
      rw [hpc] at hI
      obtain ⟨t', g', hg, pre, b, c, rfl⟩ := hI
      rcases hb with ⟨rfl, hb⟩ | ⟨hb, rfl⟩ | ⟨rfl, rfl, hb⟩
      · cases c; exact (hb rfl).elim
      · cases c; exact (hb rfl).elim
      · rw [List.append_nil] at b
        subst b
        refine (hb g' ?_).elim
        rw [← buildGroup_some g']
        congr 1
        funext j
        rw [if_pos (d.covered j).symm]

/-- A thread alone: the steps of `encode` give what `derivedEncode` gives. -/
theorem intern_alone (m : Mode) (d : GroupDef V) (g : d.Group) (index t : Nat) (rest : List (Nat × Fin d.n))
    (ks : List Nat) (s : LabelSys S V d.n) (hpc : s.pc t = .encoding g index ks rest) :
    ∃ tr s', Exec (LabelStep m D d) s
        (tr ++ [.encoded t g ((encodeDyn D g rest s.heap).1.map fun k => (index, ks ++ k))]) s' ∧
      s'.heap = (encodeDyn D g rest s.heap).2 ∧ (∀ e ∈ tr, e = .tau t) ∧
      s'.pc = (s.goto t .idle).pc := by
  induction rest generalizing ks s with
  | nil =>
    refine ⟨[], { s with ids := (index, ks) :: s.ids }.goto t .idle, .snoc .nil ?_, rfl, by simp, rfl⟩
    simp only [encodeDyn, Option.map_some, List.append_nil]
    exact .encodeEnd hpc
  | cons p rest ih =>
    obtain ⟨r, i⟩ := p
    cases hx : D.encode (s.heap r) (g i) with
    | mk o x =>
      cases o with
      | none =>
        refine ⟨[], { s with heap := s.heap.set r x }.goto t .idle, .snoc .nil ?_, ?_, by simp, ?_⟩
        · simp only [encodeDyn, hx, Option.map_none]
          exact .internRefused hpc hx
        · simp [encodeDyn, hx, LabelSys.goto]
        · rfl
      | some k =>
        obtain ⟨tr, s', e1, e2, e3, e4⟩ := ih (ks ++ [k])
          ({ s with heap := s.heap.set r x }.goto t (.encoding g index (ks ++ [k]) rest)) (by simp [LabelSys.goto])
        refine ⟨.tau t :: tr, s', ?_, ?_, ?_, ?_⟩
        · have := exec_cons (LabelStep.intern (m := m) hpc hx) e1
          have heq : ((encodeDyn D g ((r, i) :: rest) s.heap).1.map fun k => (index, ks ++ k))
              = (encodeDyn D g rest (s.heap.set r x)).1.map fun k' => (index, ks ++ [k] ++ k') := by
            simp only [encodeDyn, hx]
            cases encodeDyn D g rest (s.heap.set r x) with
            | mk o h' => cases o <;> simp
          rw [heq]
          exact this
        · rw [e2]
          simp only [encodeDyn, hx, LabelSys.goto]
          cases encodeDyn D g rest (s.heap.set r x) with
          | mk o h' => cases o <;> simp
        · simpa using e3
        · rw [e4]; funext t'; simp only [LabelSys.goto]; split <;> rfl

/-- The rest of a `decode` that runs alone. -/
theorem resolve_alone (m : Mode) (d : GroupDef V) (u : Nat × List Nat) (t : Tid) (rest : List (Nat × Fin d.n)) :
    ∀ (ks : List Nat) (env : Env V d.n) (s : LabelSys S V d.n), s.pc t = .decoding u env rest ks →
    ∃ tr e s', Exec (LabelStep m D d) s (tr ++ [e]) s' ∧ (∀ e ∈ tr, e = .tau t) ∧ s'.pc = (s.goto t .idle).pc ∧
      s'.heap = s.heap ∧ s'.ids = s.ids ∧
      e = match (decodeDyn D s.heap rest ks env).bind buildGroup with | .ok g => .decoded t u g | _ => .panic t := by
  induction rest with
  | nil =>
    intro ks env s hpc
    cases ks with
    | nil =>
      simp only [decodeDyn, Out.bind]
      cases hb : buildGroup env with
      | ok g => exact ⟨[], _, s.goto t .idle, .snoc .nil (.decodeEnd hpc hb), by simp, rfl, rfl, rfl, rfl⟩
      | err =>
        exact ⟨[], _, s.goto t .idle, .snoc .nil (.decodeEndPanic hpc (.inr (.inr ⟨rfl, rfl, by simp [hb]⟩))), by simp,
          rfl, rfl, rfl, rfl⟩
      | panic =>
        exact ⟨[], _, s.goto t .idle, .snoc .nil (.decodeEndPanic hpc (.inr (.inr ⟨rfl, rfl, by simp [hb]⟩))), by simp,
          rfl, rfl, rfl, rfl⟩
    | cons k ks =>
      exact ⟨[], _, s.goto t .idle, .snoc .nil (.decodeEndPanic hpc (.inl ⟨rfl, by simp⟩)), by simp,
          rfl, rfl, rfl, rfl⟩
  | cons p rest ih =>
    obtain ⟨r, i⟩ := p
    intro ks env s hpc
    cases ks with
    | nil =>
      exact ⟨[], _, s.goto t .idle, .snoc .nil (.decodeEndPanic hpc (.inr (.inl ⟨by simp, rfl⟩))), by simp,
          rfl, rfl, rfl, rfl⟩
    | cons k ks =>
      cases hx : D.decode (s.heap r) k with
      | ok v =>
        obtain ⟨tr, e, s', e1, e2, e3, e4, e5, e6⟩ := ih ks (env.bind i v)
          (s.goto t (.decoding u (env.bind i v) rest ks)) (by simp [LabelSys.goto])
        refine ⟨.tau t :: tr, e, s', exec_cons (LabelStep.resolve (m := m) hpc hx) e1, by simpa using e2, ?_, e4, e5, ?_⟩
        · rw [e3]
          funext t'
          simp only [LabelSys.goto]
          split <;> rfl
        · rw [e6]
          simp only [decodeDyn, hx, LabelSys.goto]
          rfl
      | err =>
        refine ⟨[], _, s.goto t .idle, .snoc .nil (.resolvePanic hpc (by simp [hx])), by simp, rfl, rfl, rfl, ?_⟩
        simp only [decodeDyn, hx]
        rfl
      | panic =>
        refine ⟨[], _, s.goto t .idle, .snoc .nil (.resolvePanic hpc (by simp [hx])), by simp, rfl, rfl, rfl, ?_⟩
        simp only [decodeDyn, hx]
        rfl

end Measured.Conc
