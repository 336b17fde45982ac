import Verif.Proof.Export

/-!
# C88: exports of the example server through the encoder that all share
-/

namespace Measured.Server
open Measured.Conc Measured.Spec

/-! ## One call per request -/

section
variable {m : Mode} {c : Vec → ShardConf Key} {ryu : F64 → Bytes} {le : List F64} {cap : Nat} {tr : List EEvent} {s s' : ESys}

theorem left_moves {t : Tid} {p p' : Pc} {e : Event} (h : Moves t p e p') (hp : p.left = true) : p'.left = true := by
  cases h <;> first | exact hp | rfl | cases hp

theorem left_step {b b' : Sys} {e : Event} (h : Step m c b e b') {t : Tid} (hp : (b.pc t).left = true) : (b'.pc t).left = true := by
  cases h with
  | @on u _ _ _ p _ hm _ =>
    by_cases hu : t = u
    · subst hu; exact (congrArg Pc.left (Function.update_self ..)).trans (left_moves hm hp)
    · exact (congrArg Pc.left (Function.update_of_ne hu ..)).trans hp
  | @own u _ p _ hm =>
    by_cases hu : t = u
    · subst hu; exact (congrArg Pc.left (Function.update_self ..)).trans (left_moves hm hp)
    · exact (congrArg Pc.left (Function.update_of_ne hu ..)).trans hp

theorem left_after {b b' : Sys} {t : Tid} {e : Event} (h : Step m c b e b') (he : e = .abandon t ∨ ∃ st, e = .answer t st) :
    (b'.pc t).left = true := by
  cases h with
  | on => rcases he with he | ⟨_, he⟩ <;> cases he
  | @own u _ p _ hm =>
    have hu := moves_of hm
    rcases he with rfl | ⟨st, rfl⟩
    · have hu : t = u := hu
      subst hu
      refine (congrArg Pc.left (Function.update_self ..)).trans ?_
      generalize b.pc t = q at hm
      cases hm
      rfl
    · have hu : t = u := hu
      subst hu
      refine (congrArg Pc.left (Function.update_self ..)).trans ?_
      generalize b.pc t = q at hm
      cases hm
      rfl

/-- Who has called the handler is in it, or has left the service for good. -/
theorem called {t : Tid} (h : Exec (EStep m c ryu le) (.new cap) tr s) (hc : .call t ∈ tr) :
    s.at' t ≠ .out ∨ (s.base.pc t).left = true := by
  induction h with
  | nil => cases hc
  | @snoc tr a e b he hs ih =>
    rcases List.mem_append.1 hc with hc | hc
    · rcases ih hc with h | h
      · rcases step_at hs t with h' | h' | h' | h' | ⟨j, h'⟩ | ⟨j, acc, h'⟩ | ⟨out, h'⟩ | ⟨out, h'⟩ | h'
        · exact .inl (h' ▸ h)
        · exact absurd h'.1 h
        · exact .inl (by rw [h'.2.1]; simp)
        · obtain ⟨h1, h2, rfl⟩ := h'
          refine .inr ?_
          cases hs with
          | run _ hs => exact left_after hs (.inl rfl)
          | giveUp _ hs => exact left_after hs (.inl rfl)
        · exact .inl (by rw [h'.2.1]; simp)
        · exact .inl (by rw [h'.2.1]; cases j <;> simp [Vec.next])
        · exact .inl (by rw [h'.2.1]; simp)
        · obtain ⟨h1, h2, rfl⟩ := h'
          refine .inr ?_
          cases hs with
          | run _ hs => exact left_after hs (.inr ⟨_, rfl⟩)
          | answer _ hs => exact left_after hs (.inr ⟨_, rfl⟩)
        · exact .inl (by rw [h'.1]; simp)
      · refine .inr ?_
        cases hs with
        | run _ hs => exact left_step hs h
        | call => exact h
        | lock => exact h
        | giveUp _ hs => exact left_step hs h
        | head _ hs => exact left_step hs h
        | headCrash => exact h
        | pass _ hs => exact left_step hs h
        | entry _ hs => exact left_step hs h
        | entryCrash => exact h
        | next _ hs => exact left_step hs h
        | finish => exact h
        | answer _ hs => exact left_step hs h
    · obtain rfl := List.mem_singleton.1 hc
      cases hs with
      | call => exact .inl (by simp)

theorem one_call {t : Tid} {A B : List EEvent} (h : Exec (EStep m c ryu le) (.new cap) (A ++ .call t :: B) s) : .call t ∉ B := by
  intro hm
  obtain ⟨B₁, B₂, rfl⟩ := List.append_of_mem hm
  rw [show A ++ .call t :: (B₁ ++ .call t :: B₂) = (A ++ .call t :: B₁) ++ .call t :: B₂ by simp] at h
  obtain ⟨a, h1, h2⟩ := exec_split _ _ h
  obtain ⟨b, hs, _⟩ := exec_cons_inv h2
  have := called h1 (t := t) (by simp)
  cases hs with
  | call hp hr =>
    rcases this with h | h
    · exact h hp
    · rw [hr] at h; cases h

end

theorem split_unique {X : Type} {x : X} {a b a' b' : List X} (h : a ++ x :: b = a' ++ x :: b') (hb : x ∉ b) (hb' : x ∉ b') :
    a = a' ∧ b = b' := by
  rcases List.append_eq_append_iff.1 h with ⟨d, rfl, hd⟩ | ⟨d, rfl, hd⟩
  · cases d with
    | nil => simp at hd; exact ⟨by simp, hd⟩
    | cons y d =>
      simp only [List.cons_append, List.cons.injEq] at hd
      exact absurd (hd.2 ▸ by simp) hb
  · cases d with
    | nil => simp at hd; exact ⟨by simp, hd.symm⟩
    | cons y d =>
      simp only [List.cons_append, List.cons.injEq] at hd
      exact absurd (hd.2 ▸ by simp) hb'

theorem claim_mono {rf : Bytes → Option F64} {le : List F64} {i : Vec} {was was' : i.groups.Group → Nat → Prop}
    {there there' : i.groups.Group → Prop} {f : Family} (h : (countClaim le i was there).text rf f)
    (hw : ∀ g a, was g a → was' g a) (ht : ∀ g, there' g → there g) : (countClaim le i was' there').text rf f := by
  cases i with
  | requests =>
    obtain ⟨l, ss, ⟨h1, h2, h3⟩, h4, h5⟩ := h
    exact ⟨l, ss, ⟨h1, fun q hq => hw _ _ (h2 q hq), fun x hx => h3 x (ht x hx)⟩, h4, h5⟩
  | responses =>
    obtain ⟨l, ss, ⟨h1, h2, h3⟩, h4, h5⟩ := h
    exact ⟨l, ss, ⟨h1, fun q hq => hw _ _ (h2 q hq), fun x hx => h3 x (ht x hx)⟩, h4, h5⟩
  | duration =>
    obtain ⟨l, ss, ⟨h1, h2, h3⟩, h4, h5⟩ := h
    exact ⟨l, ss, ⟨h1, fun q hq => ⟨hw _ _ (h2 q hq).1, (h2 q hq).2⟩, fun x hx => h3 x (ht x hx)⟩, h4, h5⟩

theorem sureIn_mono {i : Vec} {g : i.groups.Group} {a b : List Event} {x : Tid} (hab : a ⊆ b) (h : SureIn i g a x) : SureIn i g b x := by
  cases i with
  | requests => obtain ⟨r, h1, h2, h3⟩ := h; exact ⟨r, h1, hab h2, hab h3⟩
  | responses => obtain ⟨r, st, h1, h2, h3, h4⟩ := h; exact ⟨r, st, h1, hab h2, hab h3, hab h4⟩
  | duration => obtain ⟨r, h1, h2, h3⟩ := h; exact ⟨r, h1, hab h2, hab h3⟩

/-- Collected in a longer time. -/
theorem serverClaim_mono {rf : Bytes → Option F64} {le : List F64} {i : Vec} {A B A' B' : List Event} {f : Family}
    (h : (serverClaim le A B i).text rf f) (hA : A' ⊆ A) (hB : ∀ e ∈ A ++ B, (∀ i f, e ≠ .on i f) → e ∈ A' ++ B') :
    (serverClaim le A' B' i).text rf f := by
  refine claim_mono h ?_ fun g ⟨x, hx⟩ => ⟨x, sureIn_mono hA hx⟩
  rintro g a ⟨⟨ts, h1, h2, h3, h4⟩, x, hx⟩
  exact ⟨⟨ts, h1, h2, fun x hx => h3 x (sureIn_mono hA hx), fun x hx => mayIn_mono hB (h4 x hx)⟩, x, mayIn_mono hB hx⟩

theorem baseEvents_prefix {a b : List EEvent} (h : a <+: b) : baseEvents a <+: baseEvents b := by
  obtain ⟨r, rfl⟩ := h
  rw [baseEvents_append]
  exact List.prefix_append _ _

/-! ## C88 -/

section
variable {m : Mode} {c : Vec → ShardConf Key} {ryu : F64 → Bytes} {rf : Bytes → Option F64} {le : List F64} {cap : Nat} {s : ESys}
  {t : Tid} {out : Bytes} {T R : List EEvent}

/-- C88, the mutex: from when a request gets it until it returns its text, nobody gets it. -/
theorem C88_alone {A B : List EEvent} (h : Exec (EStep m c ryu le) (.new cap) (A ++ .locked t :: B) s)
    (hB : ∀ out, .text t out ∉ B) (u : Tid) : .locked u ∉ B := by
  obtain ⟨a, h1, h2⟩ := exec_split _ _ h
  obtain ⟨b, hs, h3⟩ := exec_cons_inv h2
  have hI := lockInv_step (lockInv h1) hs
  have hl : b.lock = some t := by cases hs; rfl
  clear h h2 hs h1
  suffices LockInv s ∧ s.lock = some t ∧ ∀ u, .locked u ∉ B from this.2.2 u
  induction h3 with
  | nil => exact ⟨hI, hl, by simp⟩
  | @snoc B x e y he hs ih =>
    obtain ⟨i1, i2, i3⟩ := ih fun out hm => hB out (List.mem_append_left _ hm)
    rcases held_step i1 i2 hs with ⟨out, rfl⟩ | ⟨h1, h2⟩
    · exact absurd (List.mem_append_right _ (List.mem_singleton.2 rfl)) (hB out)
    · refine ⟨lockInv_step i1 hs, h1, fun u hm => ?_⟩
      rcases List.mem_append.1 hm with hm | hm
      · exact i3 u hm
      · exact (h2 u []).1 (List.mem_singleton.1 hm).symm

/-- C88. Every text that a request returns is read back as the three families. They were collected one after the other
between its call of the handler and the text, and each is as C87 and C80 say for the time of its collection. -/
theorem C88_text (F : FloatText ryu rf) (h : Exec (EStep m c ryu le) (.new cap) (T ++ .text t out :: R) s)
    (hc : ∀ i k, (c i).shardOf k < (c i).n) (hlen : FewRequests (baseEvents T)) (hle : thresholds = .ok le) :
    ∃ (T₀ T₁ W : List EEvent) (A B C : Vec → List Event) (acc : (i : Vec) → List (Key × List i.Call)) (f : Vec → Family),
      T = T₀ ++ .call t :: T₁ ++ .locked t :: W ∧ (∀ u o, .locked u ∉ W ∧ .text u o ∉ W) ∧
      baseEvents (T₀ ++ .call t :: T₁) <+: A .requests ∧
      A .requests ++ .on .requests (.vec (.startPass t)) :: B .requests <+: A .responses ∧
      A .responses ++ .on .responses (.vec (.startPass t)) :: B .responses <+: A .duration ∧
      (∀ i, baseEvents T = A i ++ .on i (.vec (.startPass t)) :: B i ++ .on i (.vec (.endPass t (acc i))) :: C i) ∧
      readFamilies rf out = some [f .requests, f .responses, f .duration] ∧
      ∀ i, (exactClaim le t (A i) (B i) i).text rf (f i) ∧ (serverClaim le (A i) (B i) i).text rf (f i) := by
  obtain ⟨a, h1, h2⟩ := exec_split _ _ h
  obtain ⟨b, hs, _⟩ := exec_cons_inv h2
  cases hs with
  | @finish _ _ enc hp he =>
    have ho : a.enc.writer = out := by cases he; rfl
    obtain ⟨T₀, T₁, A, B, C, acc, X⟩ := export_run h1 hp
    rw [ho] at X
    have htr : ∀ i, baseEvents T = baseEvents (A i) ++ .on i (.vec (.startPass t)) :: baseEvents (B i) ++
        .on i (.vec (.endPass t (acc i))) :: baseEvents (C i) := by
      intro i
      conv_lhs => rw [X.split i]
      rw [baseEvents_append, baseEvents_append]
      rfl
    obtain ⟨o, f, e1, e2, e3⟩ := C87_exact F m (exec_base h1) hc hlen hle (fun i => baseEvents (A i)) (fun i => baseEvents (B i))
      (fun i => baseEvents (C i)) acc htr X.once
    obtain ⟨o', f', e1', e2', e3'⟩ := C80_scrape F m (exec_base h1) hc hlen hle (fun i => baseEvents (A i)) (fun i => baseEvents (B i))
      (fun i => baseEvents (C i)) acc htr X.once
    have hx := X.text
    have o1 : o = out := by
      have := e1.symm.trans hx
      simp only [Prod.mk.injEq, Out.ok.injEq, and_true] at this
      exact this
    have o2 : o' = out := by
      have := e1'.symm.trans hx
      simp only [Prod.mk.injEq, Out.ok.injEq, and_true] at this
      exact this
    subst o1 o2
    have hf : ∀ i, f' i = f i := by
      rw [e2] at e2'
      simp only [Option.some.injEq, List.cons.injEq, and_true] at e2'
      intro i
      cases i
      · exact e2'.1.symm
      · exact e2'.2.1.symm
      · exact e2'.2.2.symm
    obtain ⟨W, hW, hq⟩ := X.alone
    refine ⟨T₀, T₁, W, fun i => baseEvents (A i), fun i => baseEvents (B i), fun i => baseEvents (C i), acc, f, hW, ?_, ?_, ?_, ?_,
      htr, e2, fun i => ⟨e3 i, hf i ▸ e3' i⟩⟩
    · exact fun u o => ⟨fun hm => (hq _ hm u o).1 rfl, fun hm => (hq _ hm u o).2 rfl⟩
    · exact baseEvents_prefix ((List.prefix_append _ _).trans X.first)
    · have := baseEvents_prefix ((List.prefix_append _ _).trans X.second)
      rwa [baseEvents_append] at this
    · have := baseEvents_prefix ((List.prefix_append _ _).trans X.third)
      rwa [baseEvents_append] at this

/-- C88, what the client sees: between the call of the handler and the text there is, for each family, a time for which it
is right. So all requests that were over before the call are counted, and none but those that had begun before the text. -/
theorem C88_response {T₀ T₁ : List EEvent} (F : FloatText ryu rf)
    (h : Exec (EStep m c ryu le) (.new cap) (T₀ ++ .call t :: T₁ ++ .text t out :: R) s)
    (hc : ∀ i k, (c i).shardOf k < (c i).n) (hlen : FewRequests (baseEvents (T₀ ++ T₁))) (hle : thresholds = .ok le) :
    ∃ f : Vec → Family, readFamilies rf out = some [f .requests, f .responses, f .duration] ∧
      ∀ i, (serverClaim le (baseEvents T₀) (baseEvents T₁) i).text rf (f i) := by
  have hb : baseEvents (T₀ ++ .call t :: T₁) = baseEvents (T₀ ++ T₁) := by
    rw [baseEvents_append, baseEvents_append]; rfl
  obtain ⟨T₀', T₁', W, A, B, C, acc, f, hT, hW, o1, o2, o3, htr, hr, hf⟩ := C88_text F h hc (hb ▸ hlen) hle
  refine ⟨f, hr, fun i => ?_⟩
  obtain ⟨a, h1, _⟩ := exec_split _ _ h
  have h1' := h1
  rw [hT, List.append_assoc, List.cons_append] at h1'
  rw [List.append_assoc, List.cons_append] at hT
  obtain ⟨rfl, _⟩ := split_unique hT (one_call h1) (one_call h1')
  have hA : baseEvents T₀ <+: A i := by
    have z : baseEvents T₀ <+: A .requests := (baseEvents_prefix (List.prefix_append _ _)).trans o1
    have y := z.trans ((List.prefix_append _ _).trans o2)
    cases i
    · exact z
    · exact y
    · exact y.trans ((List.prefix_append _ _).trans o3)
  refine serverClaim_mono (hf i).2 hA.subset fun e he hn => ?_
  have : e ∈ baseEvents (T₀ ++ .call t :: T₁) := by
    rw [htr i]
    simp only [List.mem_append, List.mem_cons] at he ⊢
    rcases he with he | he
    · exact .inl (.inl he)
    · exact .inl (.inr (.inr he))
  rw [hb, baseEvents_append] at this
  exact this

/-- C88, a text never shows more answers than durations. -/
theorem C88_answered (F : FloatText ryu rf) (h : Exec (EStep m c ryu le) (.new cap) (T ++ .text t out :: R) s)
    (hc : ∀ i k, (c i).shardOf k < (c i).n) (hlen : FewRequests (baseEvents T)) (hle : thresholds = .ok le) :
    ∃ f : Vec → Family, readFamilies rf out = some [f .requests, f .responses, f .duration] ∧ ∀ (p : Bytes) (a : Method),
      shownTotal (f .responses) b!"http_responses" p (methodText a) ≤
        shownTotal (f .duration) b!"http_request_duration_count" p (methodText a) := by
  obtain ⟨T₀, T₁, W, A, B, C, acc, f, -, -, -, -, o3, htr, hr, hf⟩ := C88_text F h hc hlen hle
  obtain ⟨a, h1, _⟩ := exec_split _ _ h
  exact ⟨f, hr, C87_answered (exec_base h1) htr o3 fun i => (hf i).1⟩

theorem before_last {X : Type} {x : X} {a b p w : List X} (h : a ++ x :: b = p ++ w) (hw : x ∉ w) : a ++ [x] <+: p := by
  rcases List.append_eq_append_iff.1 h with ⟨d, rfl, hd⟩ | ⟨d, rfl, hd⟩
  · cases d with
    | nil => exact absurd (by rw [← show x :: b = w from hd]; simp) hw
    | cons y d =>
      simp only [List.cons_append, List.cons.injEq] at hd
      rw [hd.1]
      exact ⟨d, by simp⟩
  · exact absurd (by rw [hd]; simp) hw

/-- C88, from one text to the next: what a later text shows for a path and a method has not gone down, for none of the three
families. -/
theorem C88_later {U : List EEvent} {u : Tid} {out' : Bytes} (F : FloatText ryu rf)
    (h : Exec (EStep m c ryu le) (.new cap) (T ++ .text t out :: U ++ .text u out' :: R) s)
    (hc : ∀ i k, (c i).shardOf k < (c i).n) (hlen : FewRequests (baseEvents (T ++ U))) (hle : thresholds = .ok le) :
    ∃ f f' : Vec → Family, readFamilies rf out = some [f .requests, f .responses, f .duration] ∧
      readFamilies rf out' = some [f' .requests, f' .responses, f' .duration] ∧ ∀ i (p meth : Bytes),
      shownTotal (f i) (countName i) p meth ≤ shownTotal (f' i) (countName i) p meth := by
  have hb : baseEvents (T ++ .text t out :: U) = baseEvents (T ++ U) := by
    rw [baseEvents_append, baseEvents_append]; rfl
  obtain ⟨T₀', T₁', W', A', B', C', acc', f', hT', hW', o1', o2', o3', htr', hr', hf'⟩ := C88_text F h hc (hb ▸ hlen) hle
  obtain ⟨a, h1, _⟩ := exec_split _ _ h
  have hlen' : FewRequests (baseEvents T) := fun ts hn hts => hlen ts hn fun x hx => by
    obtain ⟨r, hr⟩ := hts x hx
    exact ⟨r, by rw [baseEvents_append]; exact List.mem_append_left _ hr⟩
  obtain ⟨T₀, T₁, W, A, B, C, acc, f, hT, hW, o1, o2, o3, htr, hr, hf⟩ := C88_text F h1 hc hlen' hle
  refine ⟨f, f', hr, hr', fun i p meth => ?_⟩
  have hpre : baseEvents T <+: A' i := by
    have z : baseEvents T <+: A' .requests := by
      refine List.IsPrefix.trans ?_ o1'
      have := baseEvents_prefix (before_last (p := T₀' ++ .call u :: T₁' ++ [.locked u]) (w := W') (by rw [hT']; simp) (hW' t out).2)
      rw [baseEvents_append, baseEvents_append (T₀' ++ .call u :: T₁')] at this
      simpa [baseEvents] using this
    have y := z.trans ((List.prefix_append _ _).trans o2')
    cases i
    · exact z
    · exact y
    · exact y.trans ((List.prefix_append _ _).trans o3')
  refine C87_later (exec_base h1) (t := t) (t' := u) (A := A i) (B := B i) (R := .on i (.vec (.endPass t (acc i))) :: C i ++ baseEvents U)
    (A' := A' i) (B' := B' i) (R' := .on i (.vec (.endPass u (acc' i))) :: C' i) ?_ (htr' i) ?_ (hf i).1 (hf' i).1 p meth
  · rw [hb, baseEvents_append, htr i]; simp
  · refine List.IsPrefix.trans ?_ hpre
    rw [htr i]
    exact List.prefix_append _ _

end

/-! ## The handler never fails -/

theorem head_ok (m : Mode) (ryu : F64 → Bytes) (i : Vec) (e : TextEnc Bytes) : ∃ e', i.head m ryu e = (.ok (), e') := by
  unfold Vec.head
  rw [writeDocHelp_eq]
  cases docHelp i.docs with
  | none => exact ⟨_, textType_bytes i.name (textKind i.kind) e⟩
  | some x =>
    rw [runAll_cons, RS.bind_assoc', RS.bind_run]
    rw [show (Encoder.run (textEncoder m ryu) (.help i.name x)) e = _ from textHelp_bytes i.name x e]
    exact ⟨_, textType_bytes i.name (textKind i.kind) ⟨.info, e.writer ++ sep e.state ++ helpLine i.name x⟩⟩

/-- What the middleware does with a metric. -/
def Usual : (i : Vec) → i.Call → Prop
  | .requests, u => u = CounterCall.inc
  | .responses, u => u = CounterCall.inc
  | .duration, u => ∃ d, d / 10 ^ 9 < 2 ^ 64 ∧ u = HistCall.observeDuration d

/-- An entry is written, if it is of a metric that the middleware uses, and not too often. -/
theorem entry_ok (m : Mode) (ryu : F64 → Bytes) {le : List F64} (hle : thresholds = .ok le) (i : Vec) (g : i.groups.Group) (us : List i.Call)
    (hl : us.length < 2 ^ 63)
    (hu : ∀ u ∈ us, Usual i u)
    (e : TextEnc Bytes) : ∃ e', i.entry m ryu le (g, us) e = (.ok (), e') := by
  cases i with
  | requests =>
    have hu : ∀ u ∈ us, u = CounterCall.inc := hu
    rw [Vec.entry, stateAfter_follows (counter_follows m) us fun u hm => by rw [hu u hm]; exact inc_ok]
    exact ⟨_, textSample_bytes m ryu (.counter (sumUp CounterCall.apply 0 us % 2 ^ 64))
      (derivedLabels requestsDef Lab.shown g) Vec.requests.name e (Nat.mod_lt _ (by decide))⟩
  | responses =>
    have hu : ∀ u ∈ us, u = CounterCall.inc := hu
    rw [Vec.entry, stateAfter_follows (counter_follows m) us fun u hm => by rw [hu u hm]; exact inc_ok]
    exact ⟨_, textSample_bytes m ryu (.counter (sumUp CounterCall.apply 0 us % 2 ^ 64))
      (derivedLabels responsesDef Lab.shown g) Vec.responses.name e (Nat.mod_lt _ (by decide))⟩
  | duration =>
    have hu : ∀ u ∈ us, ∃ d, d / 10 ^ 9 < 2 ^ 64 ∧ u = HistCall.observeDuration d := hu
    obtain ⟨_, hnd, hnn⟩ := C28_exponential 16 (by decide) start factor le hle
    rw [Vec.entry, stateAfter_follows (hist_follows le) us fun _ _ => trivial]
    refine ⟨_, textSample_bytes m ryu (.histogram le (histConc le (sumUp HistCall.apply [] us))) _ _ e
      (Fits.sizeOk (histConc_shown hnd hnn (sumUp_noNaN fun u hm => ?_) ?_ [] []).1)⟩
    · obtain ⟨d, hd, rfl⟩ := hu u hm
      obtain ⟨_, hf, _⟩ := asSecsF64_err hd
      exact (F64.isFinite_split hf).1
    · rw [sumUp_hist, List.length_map]; exact hl

section
variable {m : Mode} {c : Vec → ShardConf Key} {ryu : F64 → Bytes} {le : List F64} {cap : Nat} {tr : List EEvent} {s : ESys}

/-- The updates of an entry that is shown. -/
theorem shown_updates {tr : List Event} {b x : Sys} (h : Exec (Step m c) (.new cap) tr b) (hlen : FewRequests tr) {i : Vec} {t : Tid} {k : Key}
    {g : i.groups.Group} {us : List i.Call} (hs : Step m c b (.on i (.shown t k g us)) x) :
    us.length < 2 ^ 63 ∧ ∀ u ∈ us, ∃ v, .on i (.vec (.update v k u)) ∈ tr := by
  obtain ⟨cur, hk, hp⟩ : ∃ cur, mapOf (mapEvents i tr) k = some cur ∧ us <+: cur := by
    cases hs with
    | own hn _ => exact absurd rfl (hn _ _)
    | on hv _ _ =>
      cases hv with
      | shown he _ =>
        cases he with
        | emit _ sh j acc snap _ old _ cur h1 h2 h3 h4 h5 =>
          exact ⟨cur, (((C23_contents (to_map h i)).2 sh k cur).1 (List.mem_of_getElem? h2)).2, h5⟩
  have hus := map_updates h hk
  have hlt : cur.length < 2 ^ 63 := by
    rw [hus, ← length_updaters]
    refine hlen _ ?_ fun x hx => ?_
    · rw [List.nodup_iff_count_le_one]
      intro x
      refine Nat.le_trans (count_updaters k x _) ?_
      have hi := taskInv h x
      cases hd : (b.pc x).did i with
      | false => rw [hi.didnt i hd]; exact Nat.zero_le _
      | true => obtain ⟨_, _, _, e, _⟩ := hi.did i hd; rw [e]; exact Nat.le_refl _
    · obtain ⟨u, hu⟩ := mem_updaters.1 hx
      have hi := taskInv h x
      cases hd : (b.pc x).did i with
      | false => rw [hi.didnt i hd] at hu; cases hu
      | true =>
        obtain ⟨_, _, g', _, e2, _⟩ := hi.did i hd
        exact may_began (did_may hi hd e2)
  refine ⟨Nat.lt_of_le_of_lt hp.length_le hlt, fun u hu => ?_⟩
  have hu := hp.subset hu
  rw [hus] at hu
  obtain ⟨v, hv⟩ := mem_updatesOf hu
  exact ⟨v, (mem_mapEvents (by simp)).1 hv⟩

/-- C88, the handler never fails: `unwrap` is never called on an error, and there is no panic in the handler. -/
theorem C88_no_crash (h : Exec (EStep m c ryu le) (.new cap) tr s) (hlen : FewRequests (baseEvents tr)) (hle : thresholds = .ok le)
    (t : Tid) : .crash t ∉ tr := by
  induction h with
  | nil => simp
  | @snoc tr a e b he hs ih =>
    have hlen' : FewRequests (baseEvents tr) := fun ts hn hts => hlen ts hn fun x hx => by
      obtain ⟨r, hr⟩ := hts x hx
      exact ⟨r, by rw [baseEvents_append]; exact List.mem_append_left _ hr⟩
    intro hm
    rcases List.mem_append.1 hm with hm | hm
    · exact ih hlen' hm
    · obtain rfl := List.mem_singleton.1 hm
      cases hs with
      | @headCrash _ i o enc _ hh ho =>
        obtain ⟨e', h'⟩ := head_ok m ryu i a.enc
        rw [h'] at hh
        cases hh
        exact ho rfl
      | @entryCrash _ i k g us x o enc _ hs hh ho =>
        obtain ⟨h1, h2⟩ := shown_updates (exec_base he) hlen' hs
        obtain ⟨c1, c2, c3⟩ := calls_ok (exec_base he)
        obtain ⟨e', h'⟩ := entry_ok m ryu hle i g us h1 (by
          cases i with
          | requests => intro u hu; obtain ⟨v, hv⟩ := h2 u hu; exact c1 v k u hv
          | responses => intro u hu; obtain ⟨v, hv⟩ := h2 u hu; exact c2 v k u hv
          | duration => intro u hu; obtain ⟨v, hv⟩ := h2 u hu; exact c3 v k u hv) a.enc
        rw [h'] at hh
        cases hh
        exact ho rfl

end

end Measured.Server
