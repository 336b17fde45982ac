import Verif.Proof.TextFamily
import Verif.Spec.Calls

/-! Any sequence of encoder calls read back line by line. -/

namespace Measured
open Spec

/-- What a call needs to be shown faithfully. -/
def CallOk : EncCall → Prop
  | .help n t => MetricNameRe n.render ∧ HelpOk t
  | .type _ n => MetricNameRe n.render
  | .sample x ls n => MetricNameRe n.render ∧ LabelsOk ls ∧ Fits x

def callLines (ryu : F64 → Bytes) : EncCall → List (Bytes × Line)
  | .help n t => [(helpText n t, .help n.render t)]
  | .type k n => [(typeLineText n (textKind k), .type n.render (kindWord k))]
  | .sample x ls n => (writtenOf n ls x).map fun s => (s.text ryu, .sample (s.sample ryu))

def callsLines (ryu : F64 → Bytes) : Bool → List EncCall → List (Bytes × Line)
  | _, [] => []
  | prev, c :: cs =>
    (if prev && !c.isSample then [([], .blank)] else []) ++ callLines ryu c ++ callsLines ryu c.isSample cs

def stateOf (prev : Bool) : TState := if prev then .metrics else .info

theorem runCall_bytes (m : Mode) (ryu : F64 → Bytes) (c : EncCall) (hc : CallOk c) (e : TextEnc Bytes) :
    (textEncoder m ryu).run c e =
      (.ok (), ⟨stateOf c.isSample,
        e.writer ++ (if c.isSample then [] else sep e.state) ++ unlines ((callLines ryu c).map Prod.fst)⟩) := by
  cases c with
  | help n t =>
    show (textEncoder m ryu).help n t e = _
    rw [show (textEncoder m ryu).help n t e = _ from textHelp_bytes _ _ _]
    simp [EncCall.isSample, stateOf, callLines, unlines, helpLine_eq]
  | type k n =>
    show (textEncoder m ryu).type k n e = _
    rw [show (textEncoder m ryu).type k n e = _ from textType_bytes _ _ _]
    simp [EncCall.isSample, stateOf, callLines, unlines, typeLine_eq]
  | sample x ls n =>
    show (textEncoder m ryu).sample x ls n e = _
    rw [show (textEncoder m ryu).sample x ls n e = _ from textSample_bytes m ryu x ls n e hc.2.2.sizeOk]
    simp [EncCall.isSample, stateOf, callLines, Function.comp_def]

theorem runCalls_bytes (m : Mode) (ryu : F64 → Bytes) (cs : List EncCall) (h : ∀ c ∈ cs, CallOk c)
    (prev : Bool) (w : Bytes) :
    ∃ prev', (textEncoder m ryu).runAll cs ⟨stateOf prev, w⟩ =
      (.ok (), ⟨stateOf prev', w ++ unlines ((callsLines ryu prev cs).map Prod.fst)⟩) := by
  induction cs generalizing prev w with
  | nil => exact ⟨prev, by simp [Encoder.runAll, callsLines, unlines]⟩
  | cons c cs ih =>
    simp only [Encoder.runAll]
    rw [RS.bind_ok (runCall_bytes m ryu c (h c (by simp)) _)]
    obtain ⟨p, hp⟩ := ih (fun x hx => h x (by simp [hx])) c.isSample
      (w ++ (if c.isSample then [] else sep (stateOf prev)) ++ unlines ((callLines ryu c).map Prod.fst))
    refine ⟨p, ?_⟩
    rw [hp]
    simp only [callsLines, List.map_append, unlines_append]
    have : unlines (List.map Prod.fst (if (prev && !c.isSample) = true then [(([] : Bytes), Line.blank)] else [])) =
        (if c.isSample then [] else sep (stateOf prev)) := by
      cases prev <;> cases c.isSample <;> rfl
    rw [this]
    simp

theorem callLines_read {ryu : F64 → Bytes} {rf : Bytes → Option F64} (F : FloatText ryu rf) {c : EncCall}
    (h : CallOk c) : ∀ p ∈ callLines ryu c, (∀ b ∈ p.1, b ≠ 0x0a) ∧ readLine rf p.1 = some p.2 := by
  intro p hp
  cases c with
  | help n t =>
    simp only [callLines, List.mem_singleton] at hp
    subst hp
    exact ⟨helpText_noNewline h.1 h.2.1, readLine_help n t h.1 h.2⟩
  | type k n =>
    simp only [callLines, List.mem_singleton] at hp
    subst hp
    refine ⟨typeText_noNewline _ h, ?_⟩
    rw [← typeWord_kind]
    exact readLine_type n _ h
  | sample x ls n =>
    obtain ⟨s, hs, rfl⟩ := List.mem_map.1 hp
    have hv := writtenOf_valid h.1 h.2.1 x s hs
    exact ⟨Written.noNewline F hv, Written.readLine F hv⟩

theorem callsLines_read {ryu : F64 → Bytes} {rf : Bytes → Option F64} (F : FloatText ryu rf) (cs : List EncCall)
    (h : ∀ c ∈ cs, CallOk c) (prev : Bool) :
    ∀ p ∈ callsLines ryu prev cs, (∀ b ∈ p.1, b ≠ 0x0a) ∧ readLine rf p.1 = some p.2 := by
  induction cs generalizing prev with
  | nil => intro p hp; cases hp
  | cons c cs ih =>
    intro p hp
    simp only [callsLines, List.mem_append] at hp
    rcases hp with (hp | hp) | hp
    · split at hp
      · simp only [List.mem_singleton] at hp
        subst hp
        exact ⟨by simp, rfl⟩
      · cases hp
    · exact callLines_read F (h c (by simp)) p hp
    · exact ih (fun x hx => h x (by simp [hx])) _ p hp

theorem callLines_lines {ryu : F64 → Bytes} {rf : Bytes → Option F64} (F : FloatText ryu rf) {c : EncCall}
    (h : CallOk c) : CallLines rf Name.render c ((callLines ryu c).map Prod.snd) := by
  cases c with
  | help n t => exact .help n t
  | type k n => exact .type k n
  | sample x ls n =>
    have := CallLines.sample (rf := rf) (text := Name.render) (written_expected F n ls x h.2.2)
    simpa [callLines, Function.comp_def] using this

theorem callsLines_lines {ryu : F64 → Bytes} {rf : Bytes → Option F64} (F : FloatText ryu rf) (cs : List EncCall)
    (h : ∀ c ∈ cs, CallOk c) (prev : Bool) : CallsLines rf Name.render prev cs ((callsLines ryu prev cs).map Prod.snd) := by
  induction cs generalizing prev with
  | nil => exact .nil
  | cons c cs ih =>
    have := CallsLines.cons (prev := prev) (callLines_lines F (h c (by simp))) (ih (fun x hx => h x (by simp [hx])) c.isSample)
    simp only [callsLines, List.map_append]
    convert this using 3
    split <;> rfl

theorem calls_read {ryu : F64 → Bytes} {rf : Bytes → Option F64} (F : FloatText ryu rf) (m : Mode)
    (cs : List EncCall) (h : ∀ c ∈ cs, CallOk c) :
    ∃ st out ls, (textEncoder m ryu).runAll cs ⟨.info, []⟩ = (.ok (), ⟨st, out⟩) ∧
      readLines rf out = some ls ∧ CallsLines rf Name.render false cs ls := by
  obtain ⟨p, hp⟩ := runCalls_bytes m ryu cs h false []
  refine ⟨_, _, _, hp, ?_, callsLines_lines F cs h false⟩
  rw [List.nil_append]
  exact readLines_unlines _ (fun p hp => (callsLines_read F cs h false p hp).1)
    (fun p hp => (callsLines_read F cs h false p hp).2)

end Measured
