import Verif.Model.Heck
import Verif.Spec.Case

/-! # The words `heck` finds are the words of the name -/

namespace Measured.Heck
open Measured.Spec

/-! ## Characters -/

theorem small_iff (b : Byte) : inClass small b ↔ isLower b = true := by
  simp [inClass, small, isLower]

theorem capital_iff (b : Byte) : inClass capital b ↔ isUpper b = true := by
  simp [inClass, capital, isUpper]

theorem digit_iff (b : Byte) : inClass digit b ↔ isDigit b = true := by
  simp [inClass, digit, isDigit]

theorem alpha_iff (b : Byte) : inClass alpha b ↔ isLower b = true ∨ isUpper b = true := by
  simp [inClass, alpha, isLower, isUpper]

theorem alnum_iff (b : Byte) : inClass alnum b ↔ isAlnum b = true := by
  simp [inClass, alnum, alpha, digit, isAlnum, isLower, isUpper, isDigit, or_assoc]

theorem lower_not_upper {b : Byte} (h : isLower b = true) : isUpper b = false := by
  simp [isLower, isUpper] at *; omega

theorem upper_not_lower {b : Byte} (h : isUpper b = true) : isLower b = false := by
  simp [isLower, isUpper] at *; omega

theorem digit_not_lower {b : Byte} (h : isDigit b = true) : isLower b = false := by
  simp [isLower, isDigit] at *; omega

theorem digit_not_upper {b : Byte} (h : isDigit b = true) : isUpper b = false := by
  simp [isUpper, isDigit] at *; omega

/-! ## A simpler scan -/

/-- The case of the last letter, if the text ends in one or in one and digits. -/
def lastCase (b : Bytes) : Option Bool :=
  b.foldl (fun l c => if isLower c then some false else if isUpper c then some true else if isDigit c then l else none) none

theorem lastCase_snoc (b : Bytes) (c : Byte) :
    lastCase (b ++ [c]) = if isLower c then some false else if isUpper c then some true else if isDigit c then lastCase b else none := by
  simp [lastCase, List.foldl_append]

theorem lastCase_iff (b : Bytes) (k : Bool) :
    lastCase b = some k ↔ ∃ x, LastLetter b x ∧ (if k then isUpper x = true else isLower x = true) := by
  induction b using List.reverseRecOn with
  | nil =>
    simp only [lastCase, List.foldl_nil]
    refine ⟨fun h => (by cases h), ?_⟩
    rintro ⟨x, ⟨u, ds, h, _⟩, _⟩
    simp at h
  | append_singleton b c ih =>
    rw [lastCase_snoc]
    have hsnoc : ∀ x, LastLetter (b ++ [c]) x ↔ (x = c ∧ inClass alpha c) ∨ (inClass digit c ∧ LastLetter b x) := by
      intro x
      constructor
      · rintro ⟨u, ds, h, hx, hd⟩
        rcases List.eq_nil_or_concat ds with rfl | ⟨ds', d, rfl⟩
        · obtain ⟨_, h⟩ := List.append_inj' h rfl
          simp only [List.cons.injEq, and_true] at h
          subst h
          exact Or.inl ⟨rfl, hx⟩
        · rw [List.concat_eq_append, ← List.cons_append, ← List.append_assoc] at h
          obtain ⟨h1, h2⟩ := List.append_inj' h rfl
          simp only [List.cons.injEq, and_true] at h2
          subst h2
          exact Or.inr ⟨hd _ (by simp), u, ds', h1, hx, fun d hd' => hd d (by simp [hd'])⟩
      · rintro (⟨rfl, hc⟩ | ⟨hc, u, ds, rfl, hx, hd⟩)
        · exact ⟨b, [], rfl, hc, by simp⟩
        · refine ⟨u, ds ++ [c], by simp, hx, ?_⟩
          intro d hd'
          rcases List.mem_append.1 hd' with hd' | hd'
          · exact hd d hd'
          · rw [List.mem_singleton.1 hd']; exact hc
    simp only [hsnoc, alpha_iff, digit_iff]
    by_cases hl : isLower c = true
    · have hu := lower_not_upper hl
      have hd : isDigit c = false := by
        cases h : isDigit c with
        | false => rfl
        | true => rw [digit_not_lower h] at hl; cases hl
      cases k <;> simp [hl, hu, hd]
    · simp only [Bool.not_eq_true] at hl
      by_cases hu : isUpper c = true
      · have hd : isDigit c = false := by
          cases h : isDigit c with
          | false => rfl
          | true => rw [digit_not_upper h] at hu; cases hu
        cases k <;> simp [hl, hu, hd]
      · simp only [Bool.not_eq_true] at hu
        by_cases hd : isDigit c = true
        · simp only [hl, hu, hd, Bool.false_eq_true, if_false, if_true, ih]
          simp
        · simp [hl, hu, hd]

/-- Whether to cut before `c`. -/
def cut (last : Option Bool) (c : Byte) (rest : Bytes) : Bool :=
  isUpper c && (last == some false || (last == some true && rest.head?.any isLower))

theorem cut_iff (b : Bytes) (c : Byte) (rest : Bytes) : CutAt b (c :: rest) ↔ cut (lastCase b) c rest = true := by
  simp only [cut, Bool.and_eq_true, Bool.or_eq_true, beq_iff_eq]
  rw [lastCase_iff, lastCase_iff]
  constructor
  · rintro ⟨x, y, r, hx, h, hy, hc⟩
    cases h
    refine ⟨(capital_iff _).1 hy, ?_⟩
    rcases hc with hc | ⟨hc, z, more, rfl, hz⟩
    · exact Or.inl ⟨x, hx, by simpa using (small_iff _).1 hc⟩
    · exact Or.inr ⟨⟨x, hx, by simpa using (capital_iff _).1 hc⟩, by simpa using (small_iff _).1 hz⟩
  · rintro ⟨hu, ⟨x, hx, hc⟩ | ⟨⟨x, hx, hc⟩, hz⟩⟩
    · exact ⟨x, c, rest, hx, rfl, (capital_iff _).2 hu, Or.inl ((small_iff _).2 (by simpa using hc))⟩
    · refine ⟨x, c, rest, hx, rfl, (capital_iff _).2 hu, Or.inr ⟨(capital_iff _).2 (by simpa using hc), ?_⟩⟩
      cases rest with
      | nil => simp at hz
      | cons z more => exact ⟨z, more, rfl, (small_iff _).2 (by simpa using hz)⟩

def nextCase (last : Option Bool) (c : Byte) : Option Bool :=
  if isLower c then some false else if isUpper c then some true else last

/-- A scan that knows the last letter. -/
def scan2 : Option Bool → Bytes → Bytes → List Bytes
  | _, cur, [] => if cur.isEmpty then [] else [cur]
  | last, cur, c :: rest =>
    if cut last c rest then cur :: scan2 (nextCase last c) [c] rest else scan2 (nextCase last c) (cur ++ [c]) rest

def modeOf : Option Bool → WordMode
  | none => .boundary
  | some false => .lowercase
  | some true => .uppercase

theorem modeOf_next (last : Option Bool) (c : Byte) :
    (if isLower c then WordMode.lowercase else if isUpper c then .uppercase else modeOf last) = modeOf (nextCase last c) := by
  unfold nextCase
  cases isLower c <;> cases isUpper c <;> rfl

theorem scan_eq (rest : Bytes) : ∀ (last : Option Bool) (cur : Bytes), rest ≠ [] →
    ¬ (last = some false ∧ rest.head?.any isUpper = true) → scan (modeOf last) cur rest = scan2 last cur rest := by
  induction rest with
  | nil => intro last cur h; exact absurd rfl h
  | cons c rest ih =>
    intro last cur _ h
    cases rest with
    | nil =>
      have : cut last c [] = false := by
        cases hu : isUpper c with
        | false => simp [cut, hu]
        | true =>
          cases last with
          | none => simp [cut, hu]
          | some k => cases k <;> simp_all [cut]
      simp [scan, scan2, this]
    | cons next rest =>
      have hno : cut last c (next :: rest) = true → last = some true ∧ isUpper c = true ∧ isLower next = true := by
        simp only [cut, Bool.and_eq_true, Bool.or_eq_true, beq_iff_eq]
        rintro ⟨hu, rfl | ⟨rfl, hl⟩⟩
        · exact absurd ⟨rfl, by simpa using hu⟩ h
        · exact ⟨rfl, hu, by simpa using hl⟩
      have hmode : modeOf last = .uppercase ↔ last = some true := by
        cases last with
        | none => simp [modeOf]
        | some k => cases k <;> simp [modeOf]
      have hlow : ∀ l, modeOf l = .lowercase ↔ l = some false := by
        intro l
        cases l with
        | none => simp [modeOf]
        | some k => cases k <;> simp [modeOf]
      rw [scan]
      simp only [modeOf_next, hlow, hmode]
      by_cases ha : nextCase last c = some false ∧ isUpper next = true
      · rw [if_pos ha]
        have hc : ¬ cut last c (next :: rest) = true := fun hc => by
          have := (hno hc).2.2
          rw [upper_not_lower ha.2] at this; cases this
        have hb := ih none [] (by simp) (by simp)
        rw [show modeOf none = .boundary from rfl] at hb
        have hn : ∀ l, nextCase l next = some true := fun l => by simp [nextCase, ha.2, upper_not_lower ha.2]
        rw [hb]
        have h1 : cut (some false) next rest = true := by simp [cut, ha.2]
        have h2 : cut none next rest = false := by simp [cut]
        simp [scan2, hc, ha.1, hn, h1, h2]
      · rw [if_neg ha]
        by_cases hb : last = some true ∧ isUpper c = true ∧ isLower next = true
        · rw [if_pos hb]
          have hcut : cut last c (next :: rest) = true := by simp [cut, hb.1, hb.2.1, hb.2.2]
          have hi := ih none [c] (by simp) (by simp)
          rw [show modeOf none = .boundary from rfl] at hi
          have hn : ∀ l, nextCase l next = some false := fun l => by simp [nextCase, hb.2.2]
          have hx : ∀ l, cut l next rest = false := fun l => by simp [cut, lower_not_upper hb.2.2]
          rw [hi]
          simp [scan2, hcut, hn, hx]
        · rw [if_neg hb, scan2, if_neg (fun hc => hb (hno hc))]
          refine ih _ _ (by simp) ?_
          rintro ⟨h1, h2⟩
          exact ha ⟨h1, by simpa using h2⟩

theorem scan2_start (w : Bytes) : scan .boundary [] w = scan2 none [] w := by
  cases w with
  | nil => rfl
  | cons c w => exact scan_eq (c :: w) none [] (by simp) (by simp)

/-- A scan of the whole text. -/
def scan3 : Option Bool → Bytes → Bytes → List Bytes
  | _, cur, [] => if cur.isEmpty then [] else [cur]
  | last, cur, c :: rest =>
    if isAlnum c then
      if cut last c rest then cur :: scan3 (nextCase last c) [c] rest else scan3 (nextCase last c) (cur ++ [c]) rest
    else (if cur.isEmpty then [] else [cur]) ++ scan3 none [] rest

theorem split_ne (s : Bytes) : split s ≠ [] := by
  cases s with
  | nil => simp [split]
  | cons c s =>
    rw [split]
    split
    · split <;> simp
    · simp

theorem isLower_alnum {b : Byte} (h : isLower b = true) : isAlnum b = true := by simp [isAlnum, h]

theorem scan3_eq (s : Bytes) : ∀ (last : Option Bool) (cur w : Bytes) (ws : List Bytes), split s = w :: ws →
    scan3 last cur s = scan2 last cur w ++ ws.flatMap (scan2 none []) := by
  induction s with
  | nil =>
    intro last cur w ws h
    rw [split] at h
    cases h
    simp [scan3, scan2]
  | cons c s ih =>
    intro last cur w ws h
    rw [split] at h
    by_cases hc : isAlnum c = true
    · rw [if_pos hc] at h
      cases hs : split s with
      | nil => exact absurd hs (split_ne s)
      | cons v vs =>
        rw [hs] at h
        simp only [List.cons.injEq] at h
        obtain ⟨rfl, rfl⟩ := h
        have hcut : cut last c s = cut last c v := by
          have : s.head?.any isLower = v.head?.any isLower := by
            cases s with
            | nil => rw [split] at hs; cases hs; rfl
            | cons d s =>
              rw [split] at hs
              by_cases hd : isAlnum d = true
              · rw [if_pos hd] at hs
                cases hs' : split s with
                | nil => exact absurd hs' (split_ne s)
                | cons x xs => rw [hs'] at hs; cases hs; rfl
              · rw [if_neg hd] at hs
                cases hs
                have : isLower d = false := by
                  cases h : isLower d with
                  | false => rfl
                  | true => exact absurd (isLower_alnum h) hd
                simp [this]
          simp only [cut, this]
        rw [scan3, if_pos hc, scan2, hcut]
        split
        · rw [ih _ _ _ _ hs]; rfl
        · rw [ih _ _ _ _ hs]
    · rw [if_neg hc] at h
      simp only [List.cons.injEq] at h
      obtain ⟨rfl, rfl⟩ := h
      rw [scan3, if_neg hc, scan2]
      cases hs : split s with
      | nil => exact absurd hs (split_ne s)
      | cons v vs => rw [ih _ _ _ _ hs]; simp

theorem words_eq (s : Bytes) : words s = scan3 none [] s := by
  cases hs : split s with
  | nil => exact absurd hs (split_ne s)
  | cons w ws =>
    rw [scan3_eq s none [] w ws hs, words, hs, List.flatMap_cons, scan2_start]
    congr 1
    exact List.flatMap_congr (fun v _ => scan2_start v)

/-! ## The scan gives the words -/

theorem lastCase_next {b : Bytes} {c : Byte} (hc : isAlnum c = true) : lastCase (b ++ [c]) = nextCase (lastCase b) c := by
  rw [lastCase_snoc, nextCase]
  cases hl : isLower c with
  | true => simp
  | false =>
    cases hu : isUpper c with
    | true => simp
    | false =>
      have : isDigit c = true := by simpa [isAlnum, hl, hu] using hc
      simp [this]

theorem lastCase_sep {b : Bytes} {c : Byte} (hc : ¬ isAlnum c = true) : lastCase (b ++ [c]) = none := by
  rw [lastCase_snoc]
  simp only [isAlnum, Bool.or_eq_true, not_or, Bool.not_eq_true] at hc
  simp [hc.1.1, hc.1.2, hc.2]

theorem scan3_words (rest : Bytes) : ∀ (b cur : Bytes), (lastCase (b ++ cur) ≠ none → cur ≠ []) → (∀ x ∈ cur, isAlnum x = true) →
    (∀ u v, cur = u ++ v → u ≠ [] → v ≠ [] → ¬ CutAt (b ++ u) (v ++ rest)) →
    WordsOf b (cur ++ rest) (scan3 (lastCase (b ++ cur)) cur rest) := by
  induction rest with
  | nil =>
    intro b cur _ hw hin
    rw [scan3]
    cases cur with
    | nil => exact .nil
    | cons c cur => exact .word (by simp) (fun x hx => (alnum_iff x).2 (hw x hx)) hin (Or.inl (by simp)) .nil
  | cons c rest ih =>
    intro b cur hl hw hin
    rw [scan3]
    by_cases hc : isAlnum c = true
    · rw [if_pos hc, ← lastCase_next hc]
      by_cases hcut : cut (lastCase (b ++ cur)) c rest = true
      · rw [if_pos hcut]
        have hne : cur ≠ [] := hl (fun h => by simp [cut, h] at hcut)
        refine .word hne (fun x hx => (alnum_iff x).2 (hw x hx)) hin (Or.inr ((cut_iff _ _ _).2 hcut)) ?_
        refine ih (b ++ cur) [c] (fun _ => by simp) (by simpa using hc) ?_
        intro u v huv hu hv
        cases u with
        | nil => exact absurd rfl hu
        | cons x u =>
          simp only [List.cons_append, List.cons.injEq] at huv
          exact absurd (List.append_eq_nil_iff.1 huv.2.symm).2 hv
      · rw [if_neg hcut]
        have := ih b (cur ++ [c]) (fun _ => by simp) (by
          intro x hx
          rcases List.mem_append.1 hx with hx | hx
          · exact hw x hx
          · rw [List.mem_singleton.1 hx]; exact hc) (by
          intro u v huv hu hv
          rcases List.eq_nil_or_concat v with rfl | ⟨v', d, rfl⟩
          · exact absurd rfl hv
          · rw [List.concat_eq_append, ← List.append_assoc] at huv
            obtain ⟨h1, h2⟩ := List.append_inj' huv rfl
            simp only [List.cons.injEq, and_true] at h2
            subst h2
            cases v' with
            | nil =>
              rw [List.append_nil] at h1
              subst h1
              rw [List.concat_eq_append, List.nil_append, List.singleton_append, cut_iff]
              exact hcut
            | cons y v' =>
              have := hin u (y :: v') h1 hu (by simp)
              simpa using this)
        simpa [List.append_assoc] using this
    · rw [if_neg hc]
      have hrest : WordsOf (b ++ cur ++ [c]) rest (scan3 none [] rest) := by
        have := ih (b ++ cur ++ [c]) [] (by rw [List.append_nil, lastCase_sep hc]; simp) (by simp) (by
          intro u v huv hu _
          exact absurd (List.append_eq_nil_iff.1 huv.symm).1 hu)
        rwa [List.append_nil, lastCase_sep hc] at this
      have hsep : WordsOf (b ++ cur) (c :: rest) (scan3 none [] rest) := .sep (fun h => hc ((alnum_iff c).1 h)) hrest
      cases cur with
      | nil => simpa using hsep
      | cons x cur =>
        exact .word (by simp) (fun y hy => (alnum_iff y).2 (hw y hy)) hin
          (Or.inl (by simpa using fun h => hc ((alnum_iff c).1 h))) hsep

theorem words_of (s : Bytes) : WordsOf [] s (words s) := by
  rw [words_eq]
  have := scan3_words s [] [] (by simp [lastCase]) (by simp) (by
    intro u v huv hu _
    exact absurd (List.append_eq_nil_iff.1 huv.symm).1 hu)
  simpa [lastCase] using this

end Measured.Heck
