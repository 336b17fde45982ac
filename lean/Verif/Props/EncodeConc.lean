import Verif.Proof.EncodeConc
import Verif.Props.LabelGroup

/-!
# C66: label ids of several threads

Threads encode and decode label groups of one derived set at the same time; calls on the interners of the
dynamic fields come in any order.
-/

namespace Measured.Conc
open Measured.Spec
variable {S V : Type} {D : DynSet S V} {inv : S → Prop} {le : S → S → Prop} {valid : S → Nat → Prop}

/-- C66. Whatever the threads do, two calls of `encode` that returned ids returned the same id exactly if they
were given the same group. -/
theorem C66_agree (m : Mode) (L : DynSetLaws D inv le valid) (d : GroupDef V)
    (hl : FieldsLawful FixedSetLaws d) (hf : Fits d) (h : Heap S) (hh : HeapInv inv h)
    {tr : List (LabelEvent V d.n)} {s : LabelSys S V d.n} (he : Exec (LabelStep m D d) (.start h) tr s)
    {t t' : Tid} {g g' : d.Group} {u u' : Nat × List Nat} (h1 : .encoded t g (some u) ∈ tr)
    (h2 : .encoded t' g' (some u') ∈ tr) : u = u' ↔ g = g' := by
  have hl' := allLawful_of_fields hl
  have I := label_inv m L d hl' _ (fits_checked hf) h hh he
  obtain ⟨a1, a2⟩ := I.enc _ _ _ h1
  obtain ⟨b1, b2⟩ := I.enc _ _ _ h2
  constructor
  · rintro rfl
    have e1 := derivedDecode_of_rep m D d hl' g u.1 a1 s.heap u.2 (fun env => holdsDyn_decode a2 env)
    have e2 := derivedDecode_of_rep m D d hl' g' u.1 b1 s.heap u.2 (fun env => holdsDyn_decode b2 env)
    rw [e1] at e2
    cases e2
    rfl
  · rintro rfl
    exact Prod.ext (a1.unique b1) (holdsDyn_unique L I.heap a2 b2)

/-- C66. A `decode` that runs while others intern returns the group that the id was handed out for, and
afterwards every id decodes to its group in either build mode. -/
theorem C66_decode (m m' : Mode) (L : DynSetLaws D inv le valid) (d : GroupDef V)
    (hl : FieldsLawful FixedSetLaws d) (hf : Fits d) (h : Heap S) (hh : HeapInv inv h)
    {tr : List (LabelEvent V d.n)} {s : LabelSys S V d.n} (he : Exec (LabelStep m D d) (.start h) tr s)
    {t : Tid} {g : d.Group} {u : Nat × List Nat} (h1 : .encoded t g (some u) ∈ tr) :
    (∀ t' g', .decoded t' u g' ∈ tr → g' = g) ∧ (derived m' D d).decode s.heap u = .ok g := by
  have hl' := allLawful_of_fields hl
  have I := label_inv m L d hl' _ (fits_checked hf) h hh he
  obtain ⟨a1, a2⟩ := I.enc _ _ _ h1
  refine ⟨fun t' g' hd => ?_, derivedDecode_of_rep m' D d hl' g u.1 a1 s.heap u.2
    (fun env => holdsDyn_decode a2 env)⟩
  obtain ⟨t'', h2⟩ := I.dec _ _ _ hd
  exact (C66_agree m L d hl hf h hh he h2 h1).1 rfl

/-- C66. No call panics. -/
theorem C66_no_panic (m : Mode) (L : DynSetLaws D inv le valid) (d : GroupDef V)
    (hl : FieldsLawful FixedSetLaws d) (hf : Fits d) (h : Heap S) (hh : HeapInv inv h)
    {tr : List (LabelEvent V d.n)} {s : LabelSys S V d.n} (he : Exec (LabelStep m D d) (.start h) tr s)
    (t : Tid) : .panic t ∉ tr :=
  (label_inv m L d (allLawful_of_fields hl) _ (fits_checked hf) h hh he).calm t

/-- C66. The steps are those of the sequential function: when a thread runs `encode` alone, it returns and
leaves behind what `derivedEncode` says. -/
theorem C66_alone (m : Mode) (D : DynSet S V) (d : GroupDef V) (g : d.Group) (s : LabelSys S V d.n) (t : Tid)
    (hpc : s.pc t = .idle) (r : Option (Nat × List Nat)) (h' : Heap S)
    (hr : (derived m D d).encode g s.heap = (.ok r, h')) :
    ∃ tr s', Exec (LabelStep m D d) s (tr ++ [.encoded t g r]) s' ∧ s'.heap = h' ∧ s'.pc = s.pc ∧
      ∀ e ∈ tr, e = .tau t := by
  have hidle : (s.goto t .idle).pc = s.pc := by
    funext t'
    simp only [LabelSys.goto]
    split
    · rename_i h; rw [h, hpc]
    · rfl
  simp only [derived, derivedEncode] at hr
  cases hf : encodeFixed m g d.fixed 1 0 with
  | ok o =>
    cases o with
    | none =>
      rw [hf] at hr
      simp only [Prod.mk.injEq, Out.ok.injEq] at hr
      obtain ⟨rfl, rfl⟩ := hr
      exact ⟨[], s, .snoc .nil (.encodeRefused hpc hf), rfl, rfl, by simp⟩
    | some index =>
      obtain ⟨tr, s', e1, e2, e3, e4⟩ := intern_alone (D := D) m d g index t d.dynamics []
        (s.goto t (.encoding g index [] d.dynamics)) (by simp [LabelSys.goto])
      refine ⟨.tau t :: tr, s', ?_, ?_, ?_, by simpa using e3⟩
      · have := exec_cons (LabelStep.encodeStart (m := m) (D := D) (d := d) hpc hf) e1
        rw [hf] at hr
        simp only [LabelSys.goto] at hr this
        cases hx : encodeDyn D g d.dynamics s.heap with
        | mk o x =>
          rw [hx] at hr this
          cases o <;> simp only [Prod.mk.injEq, Out.ok.injEq] at hr <;> obtain ⟨rfl, rfl⟩ := hr <;>
            simpa using this
      · rw [e2]
        rw [hf] at hr
        simp only [LabelSys.goto] at hr ⊢
        cases hx : encodeDyn D g d.dynamics s.heap with
        | mk o x =>
          rw [hx] at hr
          cases o <;> simp only [Prod.mk.injEq, Out.ok.injEq] at hr <;> exact hr.2
      · rw [e4, ← hidle]
        funext t'
        simp only [LabelSys.goto]
        split <;> rfl
  | err => rw [hf] at hr; simp at hr
  | panic => rw [hf] at hr; simp at hr

/-- C66. It panics where the sequential function does. -/
theorem C66_alone_panic (m : Mode) (D : DynSet S V) (d : GroupDef V) (g : d.Group) (s : LabelSys S V d.n) (t : Tid)
    (hpc : s.pc t = .idle) (hr : ∀ r, ((derived m D d).encode g s.heap).1 ≠ .ok r) :
    Exec (LabelStep m D d) s [.panic t] s := by
  refine Exec.snoc (tr := []) .nil (.encodePanic (g := g) hpc ?_)
  simp only [derived, derivedEncode] at hr
  cases hf : encodeFixed m g d.fixed 1 0 with
  | panic => exact .inl rfl
  | err => exact .inr rfl
  | ok o =>
    rw [hf] at hr
    cases o with
    | none => exact absurd rfl (hr none)
    | some index =>
      cases hx : encodeDyn D g d.dynamics s.heap with
      | mk o x =>
        simp only [hx] at hr
        cases o <;> exact absurd rfl (hr _)

/-- C66. When a thread runs `decode` alone, it returns what `derivedDecode` says, or panics with it, and changes
nothing. -/
theorem C66_alone_decode (m : Mode) (D : DynSet S V) (d : GroupDef V) (u : Nat × List Nat) (s : LabelSys S V d.n) (t : Tid)
    (hpc : s.pc t = .idle) (hu : u ∈ s.ids) :
    ∃ tr e s', Exec (LabelStep m D d) s (tr ++ [e]) s' ∧ (∀ e ∈ tr, e = .tau t) ∧ s' = s ∧
      e = match (derived m D d).decode s.heap u with | .ok g => .decoded t u g | _ => .panic t := by
  have hidle : s.goto t .idle = s := by
    obtain ⟨h, ids, pc⟩ := s
    simp only [LabelSys.goto, LabelSys.mk.injEq, true_and]
    funext t'
    split
    · rename_i h; rw [h]; exact hpc.symm
    · rfl
  have stop : (∀ index env, decodeFixed d.fixed u.1 (fun _ => none) = .ok (index, env) →
        debugAssert m (index = 0) ≠ .ok ()) → (∀ g, derivedDecode m D d s.heap u ≠ .ok g) →
      ∃ tr e s', Exec (LabelStep m D d) s (tr ++ [e]) s' ∧ (∀ e ∈ tr, e = .tau t) ∧ s' = s ∧
      e = match derivedDecode m D d s.heap u with | .ok g => .decoded t u g | _ => .panic t := by
    intro h1 h2
    refine ⟨[], _, s, .snoc .nil (.decodePanic hpc hu h1), by simp, rfl, ?_⟩
    cases hd : derivedDecode m D d s.heap u with
    | ok g => exact absurd hd (h2 g)
    | err => rfl
    | panic => rfl
  simp only [derived]
  cases hf : decodeFixed d.fixed u.1 (fun _ => none) with
  | err => exact stop (by simp [hf]) (fun g h => by simp only [derivedDecode, hf] at h; cases h)
  | panic => exact stop (by simp [hf]) (fun g h => by simp only [derivedDecode, hf] at h; cases h)
  | ok p =>
    obtain ⟨index, env⟩ := p
    cases ha : debugAssert m (index = 0) with
    | ok w =>
      cases w
      obtain ⟨tr, e, s', e1, e2, e3, e4, e5, e6⟩ := resolve_alone (D := D) m d u t d.dynamics u.2 env
        (s.goto t (.decoding u env d.dynamics u.2)) (by simp [LabelSys.goto])
      refine ⟨.tau t :: tr, e, s', exec_cons (LabelStep.decodeStart (m := m) hpc hu hf ha) e1, by simpa using e2, ?_, ?_⟩
      · have : s' = s.goto t .idle := by
          obtain ⟨h, ids, pc⟩ := s'
          simp only [LabelSys.goto, LabelSys.mk.injEq] at e3 e4 e5 ⊢
          refine ⟨e4, e5, ?_⟩
          rw [e3]
          funext t'
          split <;> rfl
        rw [this, hidle]
      · rw [e6]
        simp only [derivedDecode, hf, LabelSys.goto]
        show _ = match ((debugAssert m (index = 0)).bind fun _ => (decodeDyn D s.heap d.dynamics u.2 env).bind buildGroup) with
          | .ok g => LabelEvent.decoded t u g
          | _ => .panic t
        rw [ha]
        rfl
    | err =>
      refine stop (fun _ _ h => ?_) (fun g h => ?_)
      · rw [hf] at h; cases h; rw [ha]; simp
      · simp only [derivedDecode, hf] at h
        change ((debugAssert m (index = 0)).bind fun _ => (decodeDyn D s.heap d.dynamics u.2 env).bind buildGroup) = .ok g at h
        rw [ha] at h; cases h
    | panic =>
      refine stop (fun _ _ h => ?_) (fun g h => ?_)
      · rw [hf] at h; cases h; rw [ha]; simp
      · simp only [derivedDecode, hf] at h
        change ((debugAssert m (index = 0)).bind fun _ => (decodeDyn D s.heap d.dynamics u.2 env).bind buildGroup) = .ok g at h
        rw [ha] at h; cases h

/-! ## Two threads that intern the same new path -/

/-- Thread 1 starts after thread 0 and interns first; thread 0 then decodes the id of thread 1. -/
def exLabelTrace : List (LabelEvent String 3) :=
  [.tau 0, .tau 1, .tau 1, .tau 0, .encoded 0 ![ "Post", "/b", "err" ] (some (4, [1])),
    .encoded 1 ![ "Get", "/b", "ok" ] (some (0, [1])), .tau 0, .tau 0, .decoded 0 (0, [1]) ![ "Get", "/b", "ok" ]]

theorem exLabel_run : ∃ s, Exec (LabelStep .debug threadedRodeo exampleDef) (.start exampleHeap) exLabelTrace s := by
  refine ⟨_, exec_cons (.encodeStart (g := ![ "Post", "/b", "err" ]) (index := 4) rfl (by decide)) <|
    exec_cons (.encodeStart (t := 1) (g := ![ "Get", "/b", "ok" ]) (index := 0) rfl (by decide)) <|
    exec_cons (.intern (t := 1) (k := 1) (x := ⟨["/a", "/b"], 10⟩) rfl rfl) <|
    exec_cons (.intern (t := 0) (k := 1) (x := ⟨["/a", "/b"], 10⟩) rfl rfl) <|
    exec_cons (.encodeEnd rfl) <|
    exec_cons (.encodeEnd rfl) <|
    exec_cons (.decodeStart (t := 0) (u := (0, [1])) (index := 0) rfl (by decide) rfl (by decide)) <|
    exec_cons (.resolve (v := "/b") rfl (by decide)) <|
    exec_cons (.decodeEnd rfl ?_) .nil⟩
  refine Eq.trans (congrArg buildGroup ?_) (buildGroup_some _)
  refine funext (show ∀ j : Fin 3, _ from fun j => ?_)
  match j with
  | 0 => rfl
  | 1 => rfl
  | 2 => rfl

example {t t' : Tid} {g g' : exampleDef.Group} {u u' : Nat × List Nat} (h1 : .encoded t g (some u) ∈ exLabelTrace)
    (h2 : .encoded t' g' (some u') ∈ exLabelTrace) : u = u' ↔ g = g' := by
  obtain ⟨s, hs⟩ := exLabel_run
  exact C66_agree .debug threadedRodeo_laws exampleDef exampleDef_lawful (fits_of_pos (by decide) (by decide))
    exampleHeap (fun _ => by show List.Nodup ["/a"]; decide) hs h1 h2

example : ∃ s, Exec (LabelStep .debug threadedRodeo exampleDef) (.start exampleHeap) exLabelTrace s ∧
    (derived .release threadedRodeo exampleDef).decode s.heap (4, [1]) = .ok ![ "Post", "/b", "err" ] := by
  obtain ⟨s, hs⟩ := exLabel_run
  exact ⟨s, hs, (C66_decode .debug .release threadedRodeo_laws exampleDef exampleDef_lawful
    (fits_of_pos (by decide) (by decide)) exampleHeap (fun _ => by show List.Nodup ["/a"]; decide) hs (t := 0)
    (.tail _ <| .tail _ <| .tail _ <| .tail _ <| .head _)).2⟩

example (t : Tid) : .panic t ∉ exLabelTrace := by
  obtain ⟨s, hs⟩ := exLabel_run
  exact C66_no_panic .debug threadedRodeo_laws exampleDef exampleDef_lawful (fits_of_pos (by decide) (by decide))
    exampleHeap (fun _ => by show List.Nodup ["/a"]; decide) hs t

example : ∃ tr s', Exec (LabelStep .debug threadedRodeo exampleDef) (.start exampleHeap)
    (tr ++ [.encoded 7 ![ "Post", "/b", "err" ] (some (4, [1]))]) s' := by
  obtain ⟨tr, s', h, _⟩ := C66_alone .debug threadedRodeo exampleDef ![ "Post", "/b", "err" ] (.start exampleHeap) 7 rfl
    _ _ rfl
  exact ⟨tr, s', h⟩

/-- Thread 5 decodes alone an id handed out before. -/
example : ∃ (h : Heap (Rodeo String)) (tr : List (LabelEvent String 3)) (s : LabelSys (Rodeo String) String 3),
    s = ⟨h, [(4, [1])], fun _ => .idle⟩ ∧
    Exec (LabelStep .debug threadedRodeo exampleDef) s (tr ++ [.decoded 5 (4, [1]) ![ "Post", "/b", "err" ]]) s := by
  have hd := (C02_derived_round_trip .debug .debug threadedRodeo _ _ _ threadedRodeo_laws exampleDef exampleDef_lawful
    (by decide) ![ "Post", "/b", "err" ] exampleHeap _ (fun _ => by show List.Nodup ["/a"]; decide) (4, [1]) rfl).1
  obtain ⟨tr, e, s', h, _, h2, h3⟩ := C66_alone_decode .debug threadedRodeo exampleDef (4, [1])
    ⟨_, [(4, [1])], fun _ => .idle⟩ 5 rfl (List.mem_singleton.2 rfl)
  rw [hd] at h3
  subst h3 h2
  exact ⟨_, tr, _, rfl, h⟩

end Measured.Conc
