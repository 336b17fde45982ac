import Verif.Proof.Heck
import Verif.Proof.Derive

/-! # The cases of `heck` -/

namespace Measured.Heck
open Measured.Spec Measured.Derive

/-! ## The words of a text are unique -/

theorem _root_.Measured.Spec.WordsOf.unique {b s : Bytes} {ws vs : List Bytes} (h : WordsOf b s ws) (h' : WordsOf b s vs) : ws = vs := by
  induction h generalizing vs with
  | nil =>
    generalize hs : ([] : Bytes) = s at h'
    cases h' with
    | nil => rfl
    | sep => cases hs
    | word hne => exact absurd (List.append_eq_nil_iff.1 hs.symm).1 hne
  | @sep b s x ws hx _ ih =>
    generalize hs : x :: s = s' at h'
    cases h' with
    | nil => cases hs
    | sep _ hr => cases hs; exact ih hr
    | @word _ w _ _ hne hw =>
      cases w with
      | nil => exact absurd rfl hne
      | cons y w =>
        rw [List.cons_append] at hs
        cases hs
        exact absurd (hw x (by simp)) hx
  | @word b w s ws hne hw hin hend _ ih =>
    generalize hs : w ++ s = s' at h'
    cases h' with
    | nil => exact absurd (List.append_eq_nil_iff.1 hs).1 hne
    | @sep _ _ x _ hx _ =>
      cases w with
      | nil => exact absurd rfl hne
      | cons y w =>
        rw [List.cons_append] at hs
        cases hs
        exact absurd (hw x (by simp)) hx
    | @word _ w' t vs' hne' hw' hin' hend' hr' =>
      have key : ∀ {w w' s t : Bytes}, w ++ s = w' ++ t → (∀ x ∈ w', inClass alnum x) →
          (∀ u v, w' = u ++ v → u ≠ [] → v ≠ [] → ¬ CutAt (b ++ u) (v ++ t)) → w ≠ [] →
          ((∀ x ∈ s.head?, ¬ inClass alnum x) ∨ CutAt (b ++ w) s) → w'.length ≤ w.length := by
        intro w w' s t h hw' hin' hne hend
        rcases List.append_eq_append_iff.1 h with ⟨v, h1, h2⟩ | ⟨v, h1, h2⟩
        · cases v with
          | nil => simp [h1]
          | cons y v =>
            exfalso
            rcases hend with hend | hend
            · rw [h2] at hend
              exact hend y (by simp) (hw' y (by rw [h1]; simp))
            · rw [h2] at hend
              exact hin' w (y :: v) h1 hne (by simp) hend
        · rw [h1]; simp
      have hlen : w.length = w'.length := by
        apply Nat.le_antisymm
        · exact key hs.symm hw hin hne' hend'
        · exact key hs hw' hin' hne hend
      obtain ⟨rfl, rfl⟩ := List.append_inj hs hlen
      rw [ih hr']

theorem words_iff (s : Bytes) (ws : List Bytes) : WordsOf [] s ws ↔ ws = words s :=
  ⟨fun h => h.unique (words_of s), fun h => h ▸ words_of s⟩

theorem _root_.Measured.Spec.WordsOf.alnum {b s : Bytes} {ws : List Bytes} (h : WordsOf b s ws) :
    ∀ w ∈ ws, w ≠ [] ∧ ∀ x ∈ w, isAlnum x = true := by
  induction h with
  | nil => intro w hw; cases hw
  | sep _ _ ih => exact ih
  | word hne hw _ _ _ ih =>
    intro v hv
    rcases List.mem_cons.1 hv with rfl | hv
    · exact ⟨hne, fun x hx => (alnum_iff x).1 (hw x hx)⟩
    · exact ih v hv

theorem words_alnum (s : Bytes) : ∀ w ∈ words s, w ≠ [] ∧ ∀ x ∈ w, isAlnum x = true := (words_of s).alnum

/-! ## Upper and lower case -/

theorem toNat_inj {a b : Byte} (h : a.toNat = b.toNat) : a = b := UInt8.toNat_inj.1 h

theorem toLower_toNat (b : Byte) : (toLower b).toNat = if isUpper b then b.toNat + 32 else b.toNat := by
  unfold toLower
  split
  · rename_i h
    rw [UInt8.toNat_ofNat']
    simp [isUpper] at h
    omega
  · rfl

theorem toUpper_toNat (b : Byte) : (toUpper b).toNat = if isLower b then b.toNat - 32 else b.toNat := by
  unfold toUpper
  split
  · rename_i h
    rw [UInt8.toNat_ofNat']
    simp [isLower] at h
    omega
  · rfl

theorem isUpper_iff (b : Byte) : isUpper b = true ↔ 65 ≤ b.toNat ∧ b.toNat ≤ 90 := by simp [isUpper]
theorem isLower_iff (b : Byte) : isLower b = true ↔ 97 ≤ b.toNat ∧ b.toNat ≤ 122 := by simp [isLower]
theorem isDigit_iff (b : Byte) : isDigit b = true ↔ 48 ≤ b.toNat ∧ b.toNat ≤ 57 := by simp [isDigit]

theorem lower_upper (b : Byte) : toLower (toUpper b) = toLower b := by
  apply toNat_inj
  rw [toLower_toNat, toLower_toNat]
  simp only [isUpper_iff, toUpper_toNat, isLower_iff]
  repeat' split
  all_goals omega

theorem upper_lower (b : Byte) : toUpper (toLower b) = toUpper b := by
  apply toNat_inj
  rw [toUpper_toNat, toUpper_toNat]
  simp only [isUpper_iff, toLower_toNat, isLower_iff]
  repeat' split
  all_goals omega

theorem lower_lower (b : Byte) : toLower (toLower b) = toLower b := by
  rw [← lower_upper (toLower b), upper_lower, lower_upper]

theorem not_upper_lower (b : Byte) : isUpper (toLower b) = false := by
  rw [Bool.eq_false_iff, Ne, isUpper_iff, toLower_toNat]
  simp only [isUpper_iff]
  split <;> omega

theorem not_lower_upper (b : Byte) : isLower (toUpper b) = false := by
  rw [Bool.eq_false_iff, Ne, isLower_iff, toUpper_toNat]
  simp only [isLower_iff]
  split <;> omega

theorem toLower_of_not {b : Byte} (h : isUpper b = false) : toLower b = b := by simp [toLower, h]
theorem toUpper_of_not {b : Byte} (h : isLower b = false) : toUpper b = b := by simp [toUpper, h]

theorem alnum_nat (b : Byte) : isAlnum b = true ↔
    (97 ≤ b.toNat ∧ b.toNat ≤ 122) ∨ (65 ≤ b.toNat ∧ b.toNat ≤ 90) ∨ (48 ≤ b.toNat ∧ b.toNat ≤ 57) := by
  simp [isAlnum, isUpper, isLower, isDigit, or_assoc]

theorem alnum_lower (b : Byte) : isAlnum (toLower b) = isAlnum b := by
  rw [Bool.eq_iff_iff, alnum_nat, alnum_nat, toLower_toNat]
  simp only [isUpper_iff]
  split <;> omega

theorem alnum_upper (b : Byte) : isAlnum (toUpper b) = isAlnum b := by
  rw [← alnum_lower, lower_upper, alnum_lower]

theorem digit_lower (b : Byte) : isDigit (toLower b) = isDigit b := by
  rw [Bool.eq_iff_iff, isDigit_iff, isDigit_iff, toLower_toNat]
  simp only [isUpper_iff]
  split <;> omega

theorem digit_upper (b : Byte) : isDigit (toUpper b) = isDigit b := by
  rw [← digit_lower, lower_upper, digit_lower]

theorem same_byte (x y : Byte) :
    (x = y ∨ (inClass capital x ∧ y.toNat = x.toNat + 32) ∨ (inClass capital y ∧ x.toNat = y.toNat + 32)) ↔ toLower x = toLower y := by
  rw [capital_iff, capital_iff, ← UInt8.toNat_inj, ← UInt8.toNat_inj, toLower_toNat, toLower_toNat]
  simp only [isUpper_iff]
  split <;> split <;> omega

theorem same_iff (u v : Bytes) : SameLetters u v ↔ lowercase u = lowercase v := by
  unfold SameLetters lowercase
  simp only [same_byte]
  induction u generalizing v with
  | nil => cases v <;> simp
  | cons x u ih =>
    cases v with
    | nil => simp
    | cons y v => simp [ih]

theorem sameWords_iff (ws vs : List Bytes) : SameWords ws vs ↔ ws.map lowercase = vs.map lowercase := by
  unfold SameWords
  induction ws generalizing vs with
  | nil => cases vs <;> simp
  | cons x u ih =>
    cases vs with
    | nil => simp
    | cons y v => simp [ih, same_iff]

theorem lower_id {t : Bytes} (h : ∀ x ∈ t, isUpper x = false) : lowercase t = t := by
  induction t with
  | nil => rfl
  | cons x t ih => simp only [lowercase, List.map_cons] at *; rw [toLower_of_not (h x (by simp)), ih (fun y hy => h y (by simp [hy]))]

theorem lowercase_idem (t : Bytes) : lowercase (lowercase t) = lowercase t := by
  simp [lowercase, lower_lower]

theorem lowercase_uppercase (t : Bytes) : lowercase (uppercase t) = lowercase t := by
  simp [lowercase, uppercase, lower_upper]

theorem uppercase_lowercase (t : Bytes) : uppercase (lowercase t) = uppercase t := by
  simp [lowercase, uppercase, upper_lower]

theorem lowercase_capitalize (t : Bytes) : lowercase (capitalize t) = lowercase t := by
  cases t with
  | nil => rfl
  | cons c t => simp [lowercase, capitalize, lower_upper, lower_lower]

theorem capitalize_lowercase (t : Bytes) : capitalize (lowercase t) = capitalize t := by
  cases t with
  | nil => rfl
  | cons c t => simp [lowercase, capitalize, upper_lower, lower_lower]

/-- The functions of the model for the cases. -/
def caseFn : WordCase → Bytes → Bytes
  | .lower => lowercase
  | .upper => uppercase
  | .capped => capitalize

theorem caseFn_lower (k : WordCase) (w : Bytes) : caseFn k (lowercase w) = caseFn k w := by
  cases k
  · exact lowercase_idem w
  · exact uppercase_lowercase w
  · exact capitalize_lowercase w

theorem lower_caseFn (k : WordCase) (w : Bytes) : lowercase (caseFn k w) = lowercase w := by
  cases k
  · exact lowercase_idem w
  · exact lowercase_uppercase w
  · exact lowercase_capitalize w

theorem caseFn_congr (k : WordCase) {w v : Bytes} : caseFn k w = caseFn k v ↔ lowercase w = lowercase v :=
  ⟨fun h => by rw [← lower_caseFn k w, h, lower_caseFn], fun h => by rw [← caseFn_lower k w, h, caseFn_lower]⟩

theorem cased_iff (k : WordCase) (w t : Bytes) : Cased k w t ↔ t = caseFn k w := by
  constructor
  · intro h
    have hl : lowercase w = lowercase t := by
      cases k <;> exact (same_iff _ _).1 h.1
    have ht : caseFn k t = t := by
      cases k with
      | lower =>
        refine lower_id (fun x hx => ?_)
        have := h.2 x hx
        rw [capital_iff] at this
        simpa using this
      | upper =>
        show uppercase t = t
        replace h := h.2
        clear hl
        induction t with
        | nil => rfl
        | cons x t ih =>
          have hx := h x (by simp)
          rw [small_iff] at hx
          simp only [uppercase, List.map_cons] at *
          rw [toUpper_of_not (by simpa using hx), ih (fun y hy => h y (by simp [hy]))]
      | capped =>
        cases t with
        | nil => rfl
        | cons x t =>
          have hx := h.2.1 x (by simp)
          rw [small_iff] at hx
          show toUpper x :: lowercase t = _
          rw [toUpper_of_not (by simpa using hx), lower_id]
          intro y hy
          have := h.2.2 y (by simpa using hy)
          rw [capital_iff] at this
          simpa using this
    rw [← ht, caseFn_congr, hl]
  · rintro rfl
    have hs : SameLetters w (caseFn k w) := (same_iff _ _).2 (lower_caseFn k w).symm
    cases k with
    | lower =>
      refine ⟨hs, fun x hx => ?_⟩
      obtain ⟨y, _, rfl⟩ := List.mem_map.1 (show x ∈ w.map toLower from hx)
      rw [capital_iff, not_upper_lower]; simp
    | upper =>
      refine ⟨hs, fun x hx => ?_⟩
      obtain ⟨y, _, rfl⟩ := List.mem_map.1 (show x ∈ w.map toUpper from hx)
      rw [small_iff, not_lower_upper]; simp
    | capped =>
      cases w with
      | nil => exact ⟨hs, by simp [caseFn, capitalize], by simp [caseFn, capitalize]⟩
      | cons c w =>
        refine ⟨hs, ?_, ?_⟩
        · intro x hx
          simp only [caseFn, capitalize, List.head?_cons, Option.mem_def, Option.some.injEq] at hx
          subst hx
          rw [small_iff, not_lower_upper]; simp
        · intro x hx
          simp only [caseFn, capitalize, List.tail_cons] at hx
          obtain ⟨y, _, rfl⟩ := List.mem_map.1 (show x ∈ w.map toLower from hx)
          rw [capital_iff, not_upper_lower]; simp

/-! ## The text of words -/

def joined (first others : WordCase) (sep : Bytes) : List Bytes → Bytes
  | [] => []
  | w :: ws => caseFn first w ++ ws.flatMap fun w => sep ++ caseFn others w

theorem transform_eq (first others : WordCase) (sep s : Bytes) :
    transform (caseFn first) (caseFn others) sep s = joined first others sep (words s) := by
  unfold transform
  cases words s <;> rfl

theorem writtenAs_iff (first others : WordCase) (sep : Bytes) (ws : List Bytes) (t : Bytes) :
    WrittenAs first others sep ws t ↔ t = joined first others sep ws := by
  cases ws with
  | nil => rfl
  | cons w ws =>
    simp only [WrittenAs, joined, cased_iff]
    have hf : ∀ ts, List.Forall₂ (Cased others) ws ts ↔ ts = ws.map (caseFn others) := by
      induction ws with
      | nil => intro ts; cases ts <;> simp
      | cons v vs ih =>
        intro ts
        cases ts with
        | nil => simp
        | cons t ts => simp [ih, cased_iff]
    simp only [hf]
    constructor
    · rintro ⟨t0, ts, rfl, rfl, rfl⟩
      rw [List.flatMap_map]
    · rintro rfl
      exact ⟨_, _, rfl, rfl, by rw [List.flatMap_map]⟩

theorem joined_congr (first others : WordCase) (sep : Bytes) {ws vs : List Bytes} (h : ws.map lowercase = vs.map lowercase) :
    joined first others sep ws = joined first others sep vs := by
  have hl : ∀ l : List Bytes, joined first others sep (l.map lowercase) = joined first others sep l := by
    intro l
    cases l with
    | nil => rfl
    | cons w l =>
      simp only [List.map_cons, joined, caseFn_lower, List.flatMap_map]
  rw [← hl ws, h, hl]

/-- The case of the first word, of the others, and the separator. -/
def styleOf : RenameAll → WordCase × WordCase × Bytes
  | .upperCamel => (.capped, .capped, [])
  | .lowerCamel => (.lower, .capped, [])
  | .snake => (.lower, .lower, b!"_")
  | .kebab => (.lower, .lower, b!"-")
  | .shoutySnake => (.upper, .upper, b!"_")
  | .shoutyKebab => (.upper, .upper, b!"-")
  | .title => (.capped, .capped, b!" ")
  | .train => (.capped, .capped, b!"-")

theorem apply_eq (r : RenameAll) (s : Bytes) :
    apply r s = joined (styleOf r).1 (styleOf r).2.1 (styleOf r).2.2 (words s) := by
  cases r
  · exact transform_eq .capped .capped _ s
  · exact transform_eq .lower .capped _ s
  · exact transform_eq .lower .lower _ s
  · exact transform_eq .lower .lower _ s
  · exact transform_eq .upper .upper _ s
  · exact transform_eq .upper .upper _ s
  · exact transform_eq .capped .capped _ s
  · exact transform_eq .capped .capped _ s

/-! ## A separator keeps the words apart -/

theorem joined_flat (k : WordCase) (sep : Bytes) (w : Bytes) (ws : List Bytes) :
    joined k k sep (w :: ws) = caseFn k w ++ (ws.map (caseFn k)).flatMap (sep ++ ·) := by
  rw [joined, List.flatMap_map]

theorem alnum_caseFn (k : WordCase) {w : Bytes} (h : ∀ x ∈ w, isAlnum x = true) : ∀ x ∈ caseFn k w, isAlnum x = true := by
  have hl : ∀ w : Bytes, (∀ x ∈ w, isAlnum x = true) → ∀ x ∈ lowercase w, isAlnum x = true := by
    intro w h x hx
    obtain ⟨y, hy, rfl⟩ := List.mem_map.1 (show x ∈ w.map toLower from hx)
    rw [alnum_lower]; exact h y hy
  cases k with
  | lower => exact hl w h
  | upper =>
    intro x hx
    obtain ⟨y, hy, rfl⟩ := List.mem_map.1 (show x ∈ w.map toUpper from hx)
    rw [alnum_upper]; exact h y hy
  | capped =>
    cases w with
    | nil => intro x hx; cases hx
    | cons c w =>
      intro x hx
      rcases List.mem_cons.1 (show x ∈ toUpper c :: lowercase w from hx) with rfl | hx
      · rw [alnum_upper]; exact h c (by simp)
      · exact hl w (fun y hy => h y (by simp [hy])) x hx

theorem caseFn_ne (k : WordCase) {w : Bytes} (h : w ≠ []) : caseFn k w ≠ [] := by
  cases w with
  | nil => exact absurd rfl h
  | cons c w => cases k <;> simp [caseFn, lowercase, uppercase, capitalize]

/-- Inside a word in one case there is no place to cut, wherever it stands after a separator. -/
theorem no_cut (k : WordCase) (w : Bytes) {b s u v : Bytes} (hb : lastCase b = none) (hw : ∀ x ∈ w, isAlnum x = true)
    (hs : ∀ x ∈ s.head?, isAlnum x = false) (huv : caseFn k w = u ++ v) (hu : u ≠ []) (hv : v ≠ []) : ¬ CutAt (b ++ u) (v ++ s) := by
  cases v with
  | nil => exact absurd rfl hv
  | cons y v =>
    rw [List.cons_append, cut_iff]
    have hno : ∀ (hx : isUpper y = false), ¬ cut (lastCase (b ++ u)) y (v ++ s) = true := by
      intro hx; simp [cut, hx]
    cases k with
    | lower =>
      have : y ∈ w.map toLower := by rw [show w.map toLower = u ++ y :: v from huv]; simp
      obtain ⟨z, _, rfl⟩ := List.mem_map.1 this
      exact hno (not_upper_lower z)
    | capped =>
      cases w with
      | nil => exact absurd (List.append_eq_nil_iff.1 huv.symm).1 hu
      | cons c w =>
        cases u with
        | nil => exact absurd rfl hu
        | cons x u =>
          have h2 : lowercase w = u ++ y :: v := (List.cons.inj huv).2
          have : y ∈ w.map toLower := by rw [show w.map toLower = u ++ y :: v from h2]; simp
          obtain ⟨z, _, rfl⟩ := List.mem_map.1 this
          exact hno (not_upper_lower z)
    | upper =>
      have hup : ∀ x ∈ u ++ y :: v, isLower x = false := by
        intro x hx
        rw [← huv] at hx
        obtain ⟨z, _, rfl⟩ := List.mem_map.1 (show x ∈ w.map toUpper from hx)
        exact not_lower_upper z
      have hlast : ∀ u : Bytes, (∀ x ∈ u, isLower x = false) → lastCase (b ++ u) ≠ some false := by
        intro u
        induction u using List.reverseRecOn with
        | nil => intro _; rw [List.append_nil, hb]; simp
        | append_singleton u x ih =>
          intro hx
          rw [← List.append_assoc, lastCase_snoc, hx x (by simp)]
          have := ih (fun z hz => hx z (by simp [hz]))
          cases isUpper x <;> cases isDigit x <;> simp [this]
      have h1 := hlast u (fun x hx => hup x (by simp [hx]))
      have h2 : (v ++ s).head?.any isLower = false := by
        cases v with
        | cons z v => simpa using hup z (by simp)
        | nil =>
          cases s with
          | nil => rfl
          | cons z s =>
            have := hs z (by simp)
            simp only [isAlnum, Bool.or_eq_false_iff] at this
            simpa using this.1.1
      rw [cut, h2, beq_eq_false_iff_ne.2 h1]
      simp

theorem join_words (k : WordCase) {sep : Byte} (hsep : isAlnum sep = false) (ws : List Bytes)
    (h : ∀ w ∈ ws, w ≠ [] ∧ ∀ x ∈ w, isAlnum x = true) : ∀ (b : Bytes),
    WordsOf b ((ws.map (caseFn k)).flatMap ([sep] ++ ·)) (ws.map (caseFn k)) := by
  have hns : ¬ inClass alnum sep := by rw [alnum_iff, hsep]; simp
  induction ws with
  | nil => intro b; exact .nil
  | cons w ws ih =>
    intro b
    have hhead : ∀ x ∈ ((ws.map (caseFn k)).flatMap ([sep] ++ ·)).head?, isAlnum x = false := by
      cases ws with
      | nil => intro x hx; cases hx
      | cons v vs =>
        intro x hx
        simp at hx
        rw [← hx]; exact hsep
    have hw := h w (by simp)
    simp only [List.map_cons, List.flatMap_cons, List.cons_append, List.nil_append]
    refine .sep hns (.word (caseFn_ne k hw.1) (fun x hx => (alnum_iff x).2 (alnum_caseFn k hw.2 x hx)) ?_ (Or.inl ?_)
      (ih (fun v hv => h v (by simp [hv])) _))
    · intro u v huv hu hv
      exact no_cut k w (lastCase_sep (by rw [hsep]; simp)) hw.2 hhead huv hu hv
    · intro x hx
      rw [alnum_iff, hhead x hx]; simp

theorem joined_words (k : WordCase) {sep : Byte} (hsep : isAlnum sep = false) (ws : List Bytes)
    (h : ∀ w ∈ ws, w ≠ [] ∧ ∀ x ∈ w, isAlnum x = true) : words (joined k k [sep] ws) = ws.map (caseFn k) := by
  symm
  rw [← words_iff]
  cases ws with
  | nil => exact .nil
  | cons w ws =>
    have hw := h w (by simp)
    have hhead : ∀ x ∈ ((ws.map (caseFn k)).flatMap ([sep] ++ ·)).head?, isAlnum x = false := by
      cases ws with
      | nil => intro x hx; cases hx
      | cons v vs =>
        intro x hx
        simp at hx
        rw [← hx]; exact hsep
    rw [joined_flat, List.map_cons]
    refine .word (caseFn_ne k hw.1) (fun x hx => (alnum_iff x).2 (alnum_caseFn k hw.2 x hx)) ?_ (Or.inl ?_)
      (join_words k hsep ws (fun v hv => h v (by simp [hv])) _)
    · intro u v huv hu hv
      exact no_cut k w rfl hw.2 hhead huv hu hv
    · intro x hx
      rw [alnum_iff, hhead x hx]; simp

/-- The styles with a separator. -/
def Separated (r : RenameAll) : Prop := r ≠ .upperCamel ∧ r ≠ .lowerCamel

theorem style_separated {r : RenameAll} (h : Separated r) :
    ∃ k sep, isAlnum sep = false ∧ ∀ s, apply r s = joined k k [sep] (words s) := by
  cases r with
  | upperCamel => exact absurd rfl h.1
  | lowerCamel => exact absurd rfl h.2
  | snake => exact ⟨.lower, 0x5f, by decide, apply_eq .snake⟩
  | kebab => exact ⟨.lower, 0x2d, by decide, apply_eq .kebab⟩
  | shoutySnake => exact ⟨.upper, 0x5f, by decide, apply_eq .shoutySnake⟩
  | shoutyKebab => exact ⟨.upper, 0x2d, by decide, apply_eq .shoutyKebab⟩
  | title => exact ⟨.capped, 0x20, by decide, apply_eq .title⟩
  | train => exact ⟨.capped, 0x2d, by decide, apply_eq .train⟩

theorem apply_words {r : RenameAll} (h : Separated r) (s : Bytes) :
    (words (apply r s)).map lowercase = (words s).map lowercase := by
  obtain ⟨k, sep, hsep, ha⟩ := style_separated h
  rw [ha, joined_words k hsep _ (words_alnum s), List.map_map]
  exact List.map_congr_left (fun w _ => lower_caseFn k w)

theorem apply_congr (r : RenameAll) {s t : Bytes} (h : (words s).map lowercase = (words t).map lowercase) : apply r s = apply r t := by
  rw [apply_eq, apply_eq, joined_congr _ _ _ h]

/-! ## Without a separator -/

theorem glue_digit (v : Bytes) : v.head?.any (fun x => decide (0x30 ≤ x.toNat ∧ x.toNat ≤ 0x39)) = v.head?.any isDigit := by
  cases v with
  | nil => rfl
  | cons x v => simp [isDigit]

theorem capitalize_digit {v : Bytes} (h : v.head?.any isDigit = true) : capitalize v = lowercase v := by
  cases v with
  | nil => rfl
  | cons x v =>
    have hd : isDigit x = true := by simpa using h
    simp only [capitalize, lowercase, List.map_cons]
    rw [toUpper_of_not (digit_not_lower hd), toLower_of_not (digit_not_upper hd)]

theorem capitalize_append {w v : Bytes} (h : w ≠ []) : capitalize (w ++ v) = capitalize w ++ lowercase v := by
  cases w with
  | nil => exact absurd rfl h
  | cons x w => simp [capitalize, lowercase]

theorem glued_flat (ws : List Bytes) : ∀ (w : Bytes), w ≠ [] → (∀ v ∈ ws, v ≠ []) →
    ∃ w' ws', gluedTo w ws = w' :: ws' ∧ (∃ d, w' = w ++ d) ∧ (∀ v ∈ ws', v ≠ [] ∧ v.head?.any isDigit = false) ∧
      (∀ f : Bytes → Bytes, (∀ v, f (w ++ v) = f w ++ lowercase v) →
        f w' ++ ws'.flatMap capitalize = f w ++ ws.flatMap capitalize) := by
  induction ws with
  | nil => intro w _ _; exact ⟨w, [], rfl, ⟨[], by simp⟩, by simp, fun f _ => rfl⟩
  | cons v vs ih =>
    intro w hw hvs
    have hv := hvs v (by simp)
    rw [gluedTo, glue_digit]
    split
    · rename_i hd
      obtain ⟨w', ws', h1, ⟨d, h2⟩, h3, h4⟩ := ih (w ++ v) (by simp [hw]) (fun x hx => hvs x (by simp [hx]))
      refine ⟨w', ws', h1, ⟨v ++ d, by rw [h2, List.append_assoc]⟩, h3, fun f hf => ?_⟩
      rw [h4 f (fun x => by rw [List.append_assoc, hf, hf]; simp [lowercase]), hf, List.flatMap_cons, capitalize_digit hd, List.append_assoc]
    · rename_i hd
      obtain ⟨w', ws', h1, ⟨d, h2⟩, h3, h4⟩ := ih v hv (fun x hx => hvs x (by simp [hx]))
      refine ⟨w, w' :: ws', by rw [h1], ⟨[], by simp⟩, ?_, fun f _ => ?_⟩
      · intro x hx
        rcases List.mem_cons.1 hx with rfl | hx
        · rw [h2]
          cases v with
          | nil => exact absurd rfl hv
          | cons y v => exact ⟨by simp, by simpa using hd⟩
        · exact h3 x hx
      · rw [List.flatMap_cons, h4 capitalize (fun x => capitalize_append hv), List.flatMap_cons]

/-- Words in a row, of which all but the first start with a capital letter and have no other one. -/
theorem flat_inj {xs ys : List Bytes} (hx : ∀ x ∈ xs, ∃ a t, x = a :: t ∧ isUpper a = true ∧ ∀ c ∈ t, isUpper c = false)
    (hy : ∀ x ∈ ys, ∃ a t, x = a :: t ∧ isUpper a = true ∧ ∀ c ∈ t, isUpper c = false) : ∀ {s t : Bytes},
    (∀ c ∈ s, isUpper c = false) → (∀ c ∈ t, isUpper c = false) → s ++ xs.flatten = t ++ ys.flatten → s = t ∧ xs = ys := by
  have hcut : ∀ {zs : List Bytes}, (∀ x ∈ zs, ∃ a t, x = a :: t ∧ isUpper a = true ∧ ∀ c ∈ t, isUpper c = false) → ∀ {s : Bytes},
      (∀ c ∈ s, isUpper c = false) → (s ++ zs.flatten).takeWhile (fun c => !isUpper c) = s := by
    intro zs hz s hs
    rw [List.takeWhile_append_of_pos (by intro c hc; simp [hs c hc])]
    cases zs with
    | nil => simp
    | cons z zs =>
      obtain ⟨a, t, rfl, ha, _⟩ := hz z (by simp)
      simp [ha]
  induction xs generalizing ys with
  | nil =>
    intro s t hs ht h
    have : s = t := by rw [← hcut hx hs, h, hcut hy ht]
    subst this
    refine ⟨rfl, ?_⟩
    have h := List.append_cancel_left h
    cases ys with
    | nil => rfl
    | cons y ys =>
      obtain ⟨a, t, rfl, _⟩ := hy y (by simp)
      simp at h
  | cons x xs ih =>
    intro s t hs ht h
    have : s = t := by rw [← hcut hx hs, h, hcut hy ht]
    subst this
    refine ⟨rfl, ?_⟩
    have h := List.append_cancel_left h
    obtain ⟨a, u, rfl, _, hu⟩ := hx x (by simp)
    cases ys with
    | nil => simp at h
    | cons y ys =>
      obtain ⟨a', u', rfl, _, hu'⟩ := hy y (by simp)
      simp only [List.flatten_cons, List.cons_append, List.cons.injEq] at h
      obtain ⟨h1, h2⟩ := ih (fun x hx' => hx x (by simp [hx'])) (fun y hy' => hy y (by simp [hy'])) hu hu' h.2
      rw [h.1, h1, h2]

theorem capitalize_shape {v : Bytes} (hne : v ≠ []) (hd : v.head?.any isDigit = false) (hv : ∀ x ∈ v, isAlnum x = true) :
    ∃ a t, capitalize v = a :: t ∧ isUpper a = true ∧ ∀ c ∈ t, isUpper c = false := by
  cases v with
  | nil => exact absurd rfl hne
  | cons x v =>
    refine ⟨toUpper x, lowercase v, rfl, ?_, ?_⟩
    · have h1 : isDigit x = false := by simpa using hd
      have h2 := hv x (by simp)
      rw [alnum_nat] at h2
      rw [isUpper_iff, toUpper_toNat]
      simp only [isLower_iff]
      rw [Bool.eq_false_iff, Ne, isDigit_iff] at h1
      split <;> omega
    · intro c hc
      obtain ⟨y, _, rfl⟩ := List.mem_map.1 (show c ∈ v.map toLower from hc)
      exact not_upper_lower y

theorem glued_alnum (ws : List Bytes) : ∀ (w : Bytes), (∀ x ∈ w, isAlnum x = true) → (∀ v ∈ ws, ∀ x ∈ v, isAlnum x = true) →
    ∀ v ∈ gluedTo w ws, ∀ x ∈ v, isAlnum x = true := by
  induction ws with
  | nil =>
    intro w hw _ v hv
    rw [gluedTo, List.mem_singleton] at hv
    rw [hv]; exact hw
  | cons u us ih =>
    intro w hw hus v hv
    rw [gluedTo] at hv
    split at hv
    · refine ih (w ++ u) ?_ (fun x hx => hus x (by simp [hx])) v hv
      intro x hx
      rcases List.mem_append.1 hx with hx | hx
      · exact hw x hx
      · exact hus u (by simp) x hx
    · rcases List.mem_cons.1 hv with rfl | hv
      · exact hw
      · exact ih u (hus u (by simp)) (fun x hx => hus x (by simp [hx])) v hv

/-- Camel case: the text determines the glued words, and is determined by them. -/
theorem joined_camel {k : WordCase} (hk : k = .lower ∨ k = .capped) {ws vs : List Bytes}
    (hw : ∀ w ∈ ws, w ≠ [] ∧ ∀ x ∈ w, isAlnum x = true) (hv : ∀ w ∈ vs, w ≠ [] ∧ ∀ x ∈ w, isAlnum x = true) :
    joined k .capped [] ws = joined k .capped [] vs ↔ (glued ws).map lowercase = (glued vs).map lowercase := by
  have happ : ∀ {w : Bytes}, w ≠ [] → ∀ v, caseFn k (w ++ v) = caseFn k w ++ lowercase v := by
    intro w hw v
    rcases hk with rfl | rfl
    · simp [caseFn, lowercase]
    · exact capitalize_append hw
  have hform : ∀ {w : Bytes} {ws : List Bytes}, (∀ v ∈ w :: ws, v ≠ [] ∧ ∀ x ∈ v, isAlnum x = true) →
      ∃ w' ws', glued (w :: ws) = w' :: ws' ∧ w' ≠ [] ∧ (∀ v ∈ ws', v ≠ [] ∧ v.head?.any isDigit = false ∧ ∀ x ∈ v, isAlnum x = true) ∧
        joined k .capped [] (w :: ws) = caseFn k w' ++ (ws'.map capitalize).flatten := by
    intro w ws h
    have hw := h w (by simp)
    obtain ⟨w', ws', h1, ⟨d, h2⟩, h3, h4⟩ := glued_flat ws w hw.1 (fun v hv => (h v (by simp [hv])).1)
    have ha := glued_alnum ws w hw.2 (fun v hv => (h v (by simp [hv])).2)
    rw [h1] at ha
    refine ⟨w', ws', h1, by rw [h2]; simp [hw.1], fun v hv => ⟨(h3 v hv).1, (h3 v hv).2, ha v (by simp [hv])⟩, ?_⟩
    have := h4 (caseFn k) (happ hw.1)
    rw [← List.flatMap_def, this]
    rfl
  cases ws with
  | nil =>
    cases vs with
    | nil => simp [glued]
    | cons v vs =>
      obtain ⟨w', ws', h1, h2, _, h4⟩ := hform hv
      rw [h1, h4]
      have := caseFn_ne k h2
      constructor
      · intro h
        exact absurd (List.append_eq_nil_iff.1 h.symm).1 this
      · intro h; simp [glued] at h
  | cons w ws =>
    obtain ⟨w', ws', h1, h2, h3, h4⟩ := hform hw
    cases vs with
    | nil =>
      rw [h1, h4]
      have := caseFn_ne k h2
      constructor
      · intro h
        exact absurd (List.append_eq_nil_iff.1 h).1 this
      · intro h; simp [glued] at h
    | cons v vs =>
      obtain ⟨v', vs', g1, g2, g3, g4⟩ := hform hv
      rw [h1, h4, g1, g4]
      have hcap : ∀ l : List Bytes, (∀ v ∈ l, v ≠ [] ∧ v.head?.any isDigit = false ∧ ∀ x ∈ v, isAlnum x = true) →
          ∀ x ∈ l.map capitalize, ∃ a t, x = a :: t ∧ isUpper a = true ∧ ∀ c ∈ t, isUpper c = false := by
        intro l hl x hx
        obtain ⟨v, hv, rfl⟩ := List.mem_map.1 hx
        exact capitalize_shape (hl v hv).1 (hl v hv).2.1 (hl v hv).2.2
      constructor
      · intro h
        have hpair : caseFn k w' = caseFn k v' ∧ ws'.map capitalize = vs'.map capitalize := by
          obtain ⟨a, s, hs, hlow⟩ : ∃ a s, caseFn k w' = a :: s ∧ ∀ c ∈ s, isUpper c = false := by
            cases w' with
            | nil => exact absurd rfl h2
            | cons a s =>
              rcases hk with rfl | rfl
              · exact ⟨toLower a, lowercase s, rfl, fun c hc => by
                  obtain ⟨y, _, rfl⟩ := List.mem_map.1 (show c ∈ s.map toLower from hc); exact not_upper_lower y⟩
              · exact ⟨toUpper a, lowercase s, rfl, fun c hc => by
                  obtain ⟨y, _, rfl⟩ := List.mem_map.1 (show c ∈ s.map toLower from hc); exact not_upper_lower y⟩
          obtain ⟨a', s', hs', hlow'⟩ : ∃ a s, caseFn k v' = a :: s ∧ ∀ c ∈ s, isUpper c = false := by
            cases v' with
            | nil => exact absurd rfl g2
            | cons a s =>
              rcases hk with rfl | rfl
              · exact ⟨toLower a, lowercase s, rfl, fun c hc => by
                  obtain ⟨y, _, rfl⟩ := List.mem_map.1 (show c ∈ s.map toLower from hc); exact not_upper_lower y⟩
              · exact ⟨toUpper a, lowercase s, rfl, fun c hc => by
                  obtain ⟨y, _, rfl⟩ := List.mem_map.1 (show c ∈ s.map toLower from hc); exact not_upper_lower y⟩
          rw [hs, hs'] at h ⊢
          simp only [List.cons_append, List.cons.injEq] at h
          obtain ⟨e1, e2⟩ := flat_inj (hcap ws' h3) (hcap vs' g3) hlow hlow' h.2
          exact ⟨by rw [h.1, e1], e2⟩
        rw [List.map_cons, List.map_cons, (caseFn_congr k).1 hpair.1]
        congr 1
        have := congrArg (List.map lowercase) hpair.2
        rw [List.map_map, List.map_map] at this
        rwa [show lowercase ∘ capitalize = lowercase from funext lowercase_capitalize] at this
      · intro h
        rw [List.map_cons, List.map_cons, List.cons.injEq] at h
        rw [(caseFn_congr k).2 h.1]
        have := congrArg (List.map capitalize) h.2
        rw [List.map_map, List.map_map, show capitalize ∘ lowercase = capitalize from funext capitalize_lowercase] at this
        rw [this]

end Measured.Heck
