import Verif.Props.Group
import Verif.Props.Proto
import Verif.Spec.Agree

/-! # Text and protobuf expositions agree (C63) -/

set_option exponentiation.threshold 3000

namespace Measured
open Measured.Spec Measured.Proto F64

theorem kind_number (k : Kind) : typeNumber (kindWord k) = kindCode k := by cases k <;> rfl

theorem canon_ofInt (n : Int) : canon (F64.ofInt n) = F64.ofInt n := by
  have : (F64.ofInt n).isNaN = false := round_not_nan _ _ _
  rw [canon, this]; rfl

theorem ofInt_natCast (n : Nat) : F64.ofInt (n : Int) = F64.ofNat n := by
  have : decide ((n : Int) < 0) = false := by simp
  rw [F64.ofInt, F64.ofNat, this, Int.natAbs_natCast]

theorem sample_agrees {ryu : F64 → Bytes} {f : FamilyIn} (h : FamilyOk f) {s : Labels × Metric} (hs : s ∈ f.samples)
    (hk : s.2.kind ≠ .histogram) :
    List.Forall₂ (SampleAgrees (some (kindWord f.kind))) ((writtenOf f.name s.1 s.2).map (Written.sample ryu))
      [pmetric ryu (sampleTag s.2) (sampleDouble s.2) s.1] := by
  have h1 := h.kind s hs
  have h2 := h.fits s hs
  obtain ⟨ls, x⟩ := s
  rw [← h1]
  cases x with
  | histogram => exact absurd rfl hk
  | counter c =>
    refine .cons ⟨rfl, F64.ofNat c, ?_, rfl, rfl⟩ .nil
    have hc : c < 2 ^ 63 := h2
    show canon (F64.ofNat c) = F64.ofInt (asI64 c)
    rw [asI64_small hc, ← ofInt_natCast, canon_ofInt]
  | gauge c => exact .cons ⟨rfl, F64.ofInt c, canon_ofInt c, rfl, rfl⟩ .nil
  | floatGauge x => exact .cons ⟨rfl, x, rfl, rfl, rfl⟩ .nil

theorem written_name {n : Name} {ls : Labels} {x : Metric} (hk : x.kind ≠ .histogram) :
    ∀ w ∈ writtenOf n ls x, w.name = n := by
  cases x with
  | histogram => exact absurd rfl hk
  | _ => simp [writtenOf]

theorem family_agrees {ryu : F64 → Bytes} {f : FamilyIn} (h : FamilyOk f) (hk : ∀ s ∈ f.samples, s.2.kind ≠ .histogram) :
    FamilyAgrees (famRead ryu f) (pfamily ryu f) := by
  refine ⟨rfl, rfl, ?_, ?_, ?_⟩
  · show some (kindCode f.kind) = some (typeNumber (kindWord f.kind))
    rw [kind_number]
  · intro s hs
    obtain ⟨w, hw, rfl⟩ := List.mem_map.1 hs
    obtain ⟨p, hp, hw⟩ := List.mem_flatMap.1 hw
    show w.name.render = f.name.render
    rw [written_name (hk p hp) w hw]
  · show List.Forall₂ (SampleAgrees (some (kindWord f.kind))) ((famWritten f).map (Written.sample ryu))
      (f.samples.map fun s => pmetric ryu (sampleTag s.2) (sampleDouble s.2) s.1)
    have : ∀ ss : List (Labels × Metric), (∀ s ∈ ss, s ∈ f.samples) →
        List.Forall₂ (SampleAgrees (some (kindWord f.kind)))
          ((ss.flatMap fun s => writtenOf f.name s.1 s.2).map (Written.sample ryu))
          (ss.map fun s => pmetric ryu (sampleTag s.2) (sampleDouble s.2) s.1) := by
      intro ss
      induction ss with
      | nil => intro _; exact .nil
      | cons s ss ih =>
        intro hm
        rw [List.flatMap_cons, List.map_append, List.map_cons, ← List.singleton_append]
        exact List.rel_append (sample_agrees h (hm s (by simp)) (hk s (hm s (by simp)))) (ih fun s hs => hm s (by simp [hs]))
    exact this _ fun _ h => h

theorem text_families {ryu : F64 → Bytes} {rf : Bytes → Option F64} (F : FloatText ryu rf) (m : Mode)
    (fs : List FamilyIn) (h : ∀ f ∈ fs, FamilyOk f) :
    ∃ st out, (textEncoder m ryu).runAll (fs.flatMap FamilyIn.calls) (TextEnc.new []) = (.ok (), ⟨st, out⟩) ∧
      readFamilies rf out = some (fs.map (famRead ryu)) := by
  obtain ⟨st, hrun⟩ := runFamilies_bytes m ryu fs (fun f hf s hs => ((h f hf).fits s hs).sizeOk) (TextEnc.new [])
  have hread := allLines_read F fs h .info
  have hlines : readLines rf (unlines ((allLines ryu .info fs).map Prod.fst)) =
      some ((allLines ryu .info fs).map Prod.snd) :=
    readLines_unlines _ (fun p hp => (hread p hp).1) (fun p hp => (hread p hp).2)
  refine ⟨st, _, hrun, ?_⟩
  show readFamilies rf (unlines ((allLines ryu .info fs).map Prod.fst)) = _
  unfold readFamilies
  rw [hlines, Option.map_some, consume_all fs (fun f hf => (h f hf).kind) .info [] trivial]
  simp

theorem proto_families {ryu : F64 → Bytes} (m : Mode) (fs : List FamilyIn)
    (hk : ∀ f ∈ fs, f.kind ≠ .histogram ∧ ∀ s ∈ f.samples, s.2.kind ≠ .histogram)
    (hs : (fs.map fun f => familySize (labelText ryu) f.name.text f).sum < 2 ^ 64) (hn : NoPendingHelp False fs) :
    ∃ e e', (protoEncoder m ryu).runAll (fs.flatMap FamilyIn.calls) (ProtoEnc.new ([] : Bytes)) = (.ok (), e) ∧
      flush m e = (.ok (), e') ∧
      decodeScrape e'.writer = some ((fs.filter fun f => f.samples ≠ []).map (pfamily ryu)) := by
  have h0 : Holds (ProtoEnc.new ([] : Bytes)) ⟨.init, [], []⟩ := ⟨rfl, rfl, .inl ⟨rfl, rfl, rfl⟩⟩
  have hs' : (encFields (⟨.init, [], []⟩ : Abs).fs).length + (fs.map (fsize ryu)).sum < 2 ^ 64 := by
    have : (fs.map (fsize ryu)) = fs.map fun f => familySize (labelText ryu) f.name.text f := by
      apply List.map_congr_left
      intro f _
      rw [fsize, f.name.text_eq]
    rw [this]
    simpa [encFields_nil] using hs
  obtain ⟨e1, h1, r1, l1, _⟩ := families_ok m ryu fs h0 hk hs'
  obtain ⟨e2, h2, r2⟩ := r1.flush m l1
  have hp : Pend ⟨.init, [], []⟩ := ⟨by simp, by simp, by simp⟩
  obtain ⟨ms, hm, hw⟩ := scrape_messages ryu fs hp hk hs' (by simpa using hn)
  refine ⟨e1, e2, h1, h2, ?_⟩
  rw [r2.2.1, hw, List.nil_append]
  exact hm.decode

/-- C63, for families without histograms (which the protobuf encoder does not support) that meet the conditions of C33
and C44: scraped by new encoders, the text output reads back as families `gs`, the protobuf output decodes to families
`ps`, and those of `gs` with samples agree with `ps` one by one, in order. Missing: what C33 and C44 miss, for which
it is false (`C63_refuted`). -/
theorem C63_agree_partial {ryu : F64 → Bytes} {rf : Bytes → Option F64} (F : FloatText ryu rf) (m : Mode)
    (fs : List FamilyIn) (h : ∀ f ∈ fs, FamilyOk f) (hk : ∀ f ∈ fs, f.kind ≠ .histogram)
    (hs : (fs.map fun f => familySize (labelText ryu) f.name.text f).sum < 2 ^ 64) (hn : NoPendingHelp False fs) :
    ∃ t e e' gs ps, (textEncoder m ryu).runAll (fs.flatMap FamilyIn.calls) (TextEnc.new []) = (.ok (), t) ∧
      readFamilies rf t.writer = some gs ∧
      (protoEncoder m ryu).runAll (fs.flatMap FamilyIn.calls) (ProtoEnc.new ([] : Bytes)) = (.ok (), e) ∧
      flush m e = (.ok (), e') ∧ decodeScrape e'.writer = some ps ∧ ScrapesAgree gs ps := by
  have hk' : ∀ f ∈ fs, f.kind ≠ .histogram ∧ ∀ s ∈ f.samples, s.2.kind ≠ .histogram :=
    fun f hf => ⟨hk f hf, fun s hs => by rw [(h f hf).kind s hs]; exact hk f hf⟩
  obtain ⟨st, out, t1, t2⟩ := text_families F m fs h
  obtain ⟨e, e', p1, p2, p3⟩ := proto_families m fs hk' hs hn
  refine ⟨⟨st, out⟩, e, e', _, _, t1, t2, p1, p2, p3, ?_⟩
  clear t1 t2 p1 p2 p3 hn hs
  unfold ScrapesAgree
  induction fs with
  | nil => exact .nil
  | cons f fs ih =>
    have ih := ih (fun f hf => h f (by simp [hf])) (fun f hf => hk f (by simp [hf])) fun f hf => hk' f (by simp [hf])
    have hsm : ((famRead ryu f).samples ≠ []) ↔ f.samples ≠ [] := by
      refine ⟨fun h1 h2 => h1 ?_, fun h1 h2 => famWritten_ne h1 (List.map_eq_nil_iff.1 h2)⟩
      show (famWritten f).map _ = []
      rw [famWritten, h2]; rfl
    rw [List.map_cons]
    by_cases he : f.samples = []
    · rw [List.filter_cons_of_neg (by simpa using fun h => (hsm.1 h) he), List.filter_cons_of_neg (by simpa using he)]
      exact ih
    · rw [List.filter_cons_of_pos (by simpa using hsm.2 he), List.filter_cons_of_pos (by simpa using he), List.map_cons]
      exact .cons (family_agrees (h f (by simp)) (hk' f (by simp)).2) ih

def exBig : FamilyIn := ⟨.str b!"big", none, .counter, [([], .counter (2 ^ 63))]⟩

/-- C63 is false for counters of `2^63` and more, which the text encoder shows as negative numbers. -/
theorem C63_refuted (m : Mode) : ∃ t e e',
    (textEncoder m exRyu).runAll exBig.calls (TextEnc.new []) = (.ok (), t) ∧
      (protoEncoder m exRyu).runAll exBig.calls (ProtoEnc.new ([] : Bytes)) = (.ok (), e) ∧ flush m e = (.ok (), e') ∧
      readFamilies (fun _ => none) t.writer = some [⟨b!"big", none, some .counter, [⟨b!"big", [], .int (-2 ^ 63)⟩]⟩] ∧
      decodeScrape e'.writer = some [⟨some b!"big", none, some 0, [⟨[], none, some (some (F64.ofNat (2 ^ 63)))⟩]⟩] ∧
      F64.ofNat (2 ^ 63) ≠ F64.ofInt (-2 ^ 63) :=
  ⟨((textEncoder m exRyu).runAll exBig.calls (TextEnc.new [])).2,
    ((protoEncoder m exRyu).runAll exBig.calls (ProtoEnc.new ([] : Bytes))).2,
    (flush m ((protoEncoder m exRyu).runAll exBig.calls (ProtoEnc.new ([] : Bytes))).2).2,
    Prod.ext (by cases m <;> decide +kernel) rfl, Prod.ext (by cases m <;> decide +kernel) rfl,
    Prod.ext (by cases m <;> decide +kernel) rfl, by cases m <;> decide +kernel, by cases m <;> decide +kernel,
    by decide +kernel⟩

/-- A family of two counters and one that was never used. -/
def exBoth : List FamilyIn := [⟨.str b!"hits", none, .counter, []⟩] ++ exFamilies.take 1

theorem exBoth_ok : ∀ f ∈ exBoth, FamilyOk f := by
  intro f hf
  rcases List.mem_append.1 hf with hf | hf
  · rw [List.mem_singleton] at hf
    subst hf
    exact ⟨(exFamilies_ok _ (List.mem_cons_self ..)).name, by simp, by simp, by simp, by simp⟩
  · exact exFamilies_ok f (List.mem_of_mem_take hf)

example : ∀ f ∈ exBoth, f.kind ≠ .histogram := by simp [exBoth, exFamilies]
example : NoPendingHelp False exBoth := by simp [NoPendingHelp, exBoth, exFamilies]
example : (exBoth.map fun f => familySize (labelText exRyu) f.name.text f).sum < 2 ^ 64 := by decide +kernel

end Measured
