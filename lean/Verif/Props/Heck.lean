import Verif.Proof.HeckCase
import Verif.Props.Derive

/-! # The labels of variants and the constants of fields: names in another case (C82) -/

namespace Measured
open Measured.Spec Measured.Derive

/-- C82: the words that are found are the words of the name. -/
theorem C82_words (s : Bytes) (ws : List Bytes) : WordsOf [] s ws ↔ ws = Heck.words s := Heck.words_iff s ws

/-- C82: every documented value of `rename_all` is accepted, and gives the words of the name in the documented case, nothing
else. -/
theorem C82_style {name : Bytes} {first others : WordCase} {sep : Bytes} (h : (name, first, others, sep) ∈ caseTable) :
    ∃ r, parseRenameAll name = some r ∧
      ∀ s t, Heck.apply r s = t ↔ ∃ ws, WordsOf [] s ws ∧ WrittenAs first others sep ws t := by
  have key : ∀ r, (first, others, sep) = Heck.styleOf r →
      ∀ s t, Heck.apply r s = t ↔ ∃ ws, WordsOf [] s ws ∧ WrittenAs first others sep ws t := by
    intro r hr s t
    simp only [Heck.words_iff, Heck.writtenAs_iff, Heck.apply_eq, ← hr]
    constructor
    · rintro rfl; exact ⟨_, rfl, rfl⟩
    · rintro ⟨_, rfl, rfl⟩; rfl
  simp only [caseTable, List.mem_cons, List.not_mem_nil, or_false, Prod.mk.injEq] at h
  rcases h with ⟨rfl, rfl, rfl, rfl⟩ | ⟨rfl, rfl, rfl, rfl⟩ | ⟨rfl, rfl, rfl, rfl⟩ | ⟨rfl, rfl, rfl, rfl⟩ | ⟨rfl, rfl, rfl, rfl⟩ |
    ⟨rfl, rfl, rfl, rfl⟩ | ⟨rfl, rfl, rfl, rfl⟩ | ⟨rfl, rfl, rfl, rfl⟩
  · exact ⟨.upperCamel, by decide, key _ rfl⟩
  · exact ⟨.lowerCamel, by decide, key _ rfl⟩
  · exact ⟨.snake, by decide, key _ rfl⟩
  · exact ⟨.kebab, by decide, key _ rfl⟩
  · exact ⟨.shoutySnake, by decide, key _ rfl⟩
  · exact ⟨.shoutyKebab, by decide, key _ rfl⟩
  · exact ⟨.title, by decide, key _ rfl⟩
  · exact ⟨.train, by decide, key _ rfl⟩

/-- C82: a variant without a discriminant and without `rename` is shown as its name in the case of `rename_all`, and as the
words in lower case with underscores if there is none. -/
theorem C82_label {P : Type} (a : EnumAttrs P) (v : Variant) (hd : v.disc = none) (hr : v.rename = none) :
    (∀ r, a.renameAll = some r → variantLabel Heck.apply a v = .str (Heck.apply r v.ident)) ∧
    (a.renameAll = none → ∃ ws t, WordsOf [] v.ident ws ∧ WrittenAs .lower .lower b!"_" ws t ∧
      variantLabel Heck.apply a v = .str t) := by
  refine ⟨fun r h => by simp [variantLabel, hd, hr, h], fun h => ?_⟩
  obtain ⟨r, hp, hs⟩ := C82_style (show (b!"snake_case", WordCase.lower, WordCase.lower, b!"_") ∈ caseTable by simp [caseTable])
  have : r = .snake := by
    have : parseRenameAll b!"snake_case" = some .snake := by decide
    rw [this] at hp
    exact (Option.some.inj hp).symm
  subst this
  obtain ⟨ws, h1, h2⟩ := (hs v.ident _).1 rfl
  exact ⟨ws, _, h1, h2, by simp [variantLabel, hd, hr, h]⟩

/-- C82: in a case with a separator, two names are written alike exactly if they have the same words up to case. -/
theorem C82_same {r : RenameAll} (hr : r ≠ .upperCamel ∧ r ≠ .lowerCamel) {s t : Bytes} {ws vs : List Bytes}
    (hs : WordsOf [] s ws) (ht : WordsOf [] t vs) : Heck.apply r s = Heck.apply r t ↔ SameWords ws vs := by
  rw [Heck.words_iff] at hs ht
  subst hs ht
  rw [Heck.sameWords_iff]
  exact ⟨fun h => by rw [← Heck.apply_words hr s, h, Heck.apply_words hr t], Heck.apply_congr r⟩

/-- C82: in the two cases without a separator, exactly if the words are the same up to case once those that start with a digit
are glued to the word before. -/
theorem C82_same_camel {r : RenameAll} (hr : r = .upperCamel ∨ r = .lowerCamel) {s t : Bytes} {ws vs : List Bytes}
    (hs : WordsOf [] s ws) (ht : WordsOf [] t vs) : Heck.apply r s = Heck.apply r t ↔ SameWords (glued ws) (glued vs) := by
  rw [Heck.words_iff] at hs ht
  subst hs ht
  rw [Heck.sameWords_iff, Heck.apply_eq, Heck.apply_eq]
  rcases hr with rfl | rfl
  · exact Heck.joined_camel (Or.inr rfl) (Heck.words_alnum s) (Heck.words_alnum t)
  · exact Heck.joined_camel (Or.inl rfl) (Heck.words_alnum s) (Heck.words_alnum t)

/-- C82: a name that was already written in a case with a separator is written in any case as before. -/
theorem C82_again {r : RenameAll} (hr : r ≠ .upperCamel ∧ r ≠ .lowerCamel) (r' : RenameAll) (s : Bytes) :
    Heck.apply r' (Heck.apply r s) = Heck.apply r' s := Heck.apply_congr r' (Heck.apply_words hr s)

/-! ## Names in the usual case of Rust -/

theorem camel_words (ws : List Bytes) (h : ∀ w ∈ ws, CamelWord w) : ∀ b : Bytes, WordsOf b ws.flatten ws := by
  induction ws with
  | nil => intro b; exact .nil
  | cons w ws ih =>
    intro b
    obtain ⟨x, y, r, rfl, hx, hy, hr⟩ := h w (by simp)
    have hr' : ∀ z ∈ y :: r, Heck.isAlnum z = true ∧ isUpper z = false := by
      intro z hz
      rcases List.mem_cons.1 hz with rfl | hz
      · have := (Heck.small_iff _).1 hy
        exact ⟨Heck.isLower_alnum this, Heck.lower_not_upper this⟩
      · obtain ⟨p, hp, h1, h2⟩ := hr z hz
        simp only [small, digit, List.cons_append, List.nil_append, List.mem_cons, List.not_mem_nil, or_false] at hp
        rw [Heck.alnum_nat, Bool.eq_false_iff, Ne, Heck.isUpper_iff]
        rcases hp with rfl | rfl <;> simp only at h1 h2 <;> omega
    have hux := (Heck.capital_iff _).1 hx
    have hall : ∀ z ∈ x :: y :: r, inClass alnum z := by
      intro z hz
      rw [Heck.alnum_iff]
      rcases List.mem_cons.1 hz with rfl | hz
      · simp [Heck.isAlnum, hux]
      · exact (hr' z hz).1
    have hlast : ∀ (b t : Bytes), (∀ z ∈ t, Heck.isAlnum z = true ∧ isUpper z = false) → Heck.lastCase b = some false →
        Heck.lastCase (b ++ t) = some false := by
      intro b t
      induction t using List.reverseRecOn with
      | nil => intro _ hb; simpa using hb
      | append_singleton t z iht =>
        intro hz hb
        have := hz z (by simp)
        rw [← List.append_assoc, Heck.lastCase_next this.1, iht (fun z' hz' => hz z' (by simp [hz'])) hb]
        simp [Heck.nextCase, this.2]
    rw [List.flatten_cons]
    refine .word (by simp) hall ?_ ?_ (ih (fun v hv => h v (by simp [hv])) _)
    · intro u v huv hu hv
      cases u with
      | nil => exact absurd rfl hu
      | cons x' u =>
        cases v with
        | nil => exact absurd rfl hv
        | cons z v =>
          rw [List.cons_append, Heck.cut_iff]
          simp only [List.cons_append, List.cons.injEq] at huv
          have : z ∈ y :: r := by rw [huv.2]; simp
          simp [Heck.cut, (hr' z this).2]
    · cases ws with
      | nil => exact Or.inl (by simp)
      | cons w' ws =>
        obtain ⟨x', y', r', rfl, hx', _, _⟩ := h w' (by simp)
        refine Or.inr ?_
        rw [List.flatten_cons, List.cons_append, Heck.cut_iff]
        have h0 : Heck.lastCase (b ++ [x] ++ [y]) = some false := by
          have hl := (Heck.small_iff _).1 hy
          rw [Heck.lastCase_snoc]; simp [hl]
        have hl := hlast (b ++ [x] ++ [y]) r (fun z hz => hr' z (by simp [hz])) h0
        simp only [List.append_assoc, List.cons_append, List.nil_append] at hl
        simp [Heck.cut, hl, (Heck.capital_iff _).1 hx']

theorem camel_eq {w v : Bytes} (hw : CamelWord w) (hv : CamelWord v) (h : Heck.lowercase w = Heck.lowercase v) : w = v := by
  have key : ∀ {w : Bytes}, CamelWord w → Heck.capitalize w = w := by
    rintro w ⟨x, y, r, rfl, hx, hy, hr⟩
    have hux := (Heck.capital_iff _).1 hx
    simp only [Heck.capitalize]
    rw [Heck.toUpper_of_not (Heck.upper_not_lower hux), Heck.lower_id]
    intro z hz
    rcases List.mem_cons.1 hz with rfl | hz
    · exact Heck.lower_not_upper ((Heck.small_iff _).1 hy)
    · obtain ⟨p, hp, h1, h2⟩ := hr z hz
      simp only [small, digit, List.cons_append, List.nil_append, List.mem_cons, List.not_mem_nil, or_false] at hp
      rw [Bool.eq_false_iff, Ne, Heck.isUpper_iff]
      rcases hp with rfl | rfl <;> simp only at h1 h2 <;> omega
  rw [← key hw, ← key hv, ← Heck.capitalize_lowercase w, h, Heck.capitalize_lowercase]

theorem camel_glued (ws : List Bytes) : ∀ w, (∀ v ∈ ws, CamelWord v) → gluedTo w ws = w :: ws := by
  induction ws with
  | nil => intro w _; rfl
  | cons v vs ih =>
    intro w h
    obtain ⟨x, y, r, rfl, hx, _, _⟩ := h v (by simp)
    rw [gluedTo, Heck.glue_digit]
    have : isDigit x = false := by
      have := (Heck.capital_iff _).1 hx
      rw [Heck.isUpper_iff] at this
      rw [Bool.eq_false_iff, Ne, Heck.isDigit_iff]
      omega
    simp [this, ih _ (fun v hv => h v (by simp [hv]))]

/-- C82: names in the usual case of Rust for variants (`CreateAll`, `Http2Error`; not `HTTPError`, no underscore) stay different in every
case. -/
theorem C82_usual (r : RenameAll) {s t : Bytes} (hs : CamelName s) (ht : CamelName t) (h : Heck.apply r s = Heck.apply r t) : s = t := by
  obtain ⟨ws, hne, hws, rfl⟩ := hs
  obtain ⟨vs, hne', hvs, rfl⟩ := ht
  have h1 := camel_words ws hws []
  have h2 := camel_words vs hvs []
  have hsame : ws.map Heck.lowercase = vs.map Heck.lowercase := by
    by_cases hr : r = .upperCamel ∨ r = .lowerCamel
    · have := (C82_same_camel hr h1 h2).1 h
      rw [Heck.sameWords_iff] at this
      have hg : ∀ l : List Bytes, (∀ w ∈ l, CamelWord w) → glued l = l := by
        intro l hl
        cases l with
        | nil => rfl
        | cons w l => exact camel_glued l w (fun v hv => hl v (by simp [hv]))
      rwa [hg ws hws, hg vs hvs] at this
    · exact (Heck.sameWords_iff _ _).1 ((C82_same (not_or.1 hr) h1 h2).1 h)
  clear h h1 h2 hne hne'
  have : ws = vs := by
    induction ws generalizing vs with
    | nil =>
      cases vs with
      | nil => rfl
      | cons v vs => cases hsame
    | cons w ws ih =>
      cases vs with
      | nil => cases hsame
      | cons v vs =>
        simp only [List.map_cons, List.cons.injEq] at hsame
        rw [camel_eq (hws w (by simp)) (hvs v (by simp)) hsame.1,
          ih (fun x hx => hws x (by simp [hx])) vs (fun x hx => hvs x (by simp [hx])) hsame.2]
  rw [this]

/-- C82: so the variants of an enum with such names, without discriminants and `rename`, have different labels, whatever
`rename_all` is. -/
theorem C82_variants {P : Type} (a : EnumAttrs P) (vs : List Variant)
    (h : ∀ v ∈ vs, v.disc = none ∧ v.rename = none ∧ CamelName v.ident) (hn : (vs.map Variant.ident).Nodup) :
    (vs.map (variantLabel Heck.apply a)).Nodup := by
  rw [List.Nodup, List.pairwise_map] at hn ⊢
  refine hn.imp_of_mem ?_
  intro v w hv hw hne he
  obtain ⟨h1, h2, h3⟩ := h v hv
  obtain ⟨g1, g2, g3⟩ := h w hw
  simp only [variantLabel, h1, g1, h2, g2, Option.getD_none, LVal.str.injEq] at he
  exact hne (C82_usual _ h3 g3 he)

/-! ## The constants of fields -/

/-- The words of a text with separators in front of a letter or digit. -/
theorem words_front {s : Bytes} {ws : List Bytes} {b : Bytes} (h : WordsOf b s ws) :
    (ws = [] ∧ ∀ x ∈ s, ¬ inClass alnum x) ∨
    ∃ pre x w vs rest, s = pre ++ x :: rest ∧ ws = (x :: w) :: vs ∧ inClass alnum x ∧ ∀ c ∈ pre, ¬ inClass alnum c := by
  induction h with
  | nil => exact Or.inl ⟨rfl, by simp⟩
  | @sep b s x ws hx _ ih =>
    rcases ih with ⟨rfl, h⟩ | ⟨pre, y, w, vs, rest, rfl, rfl, hy, hp⟩
    · refine Or.inl ⟨rfl, ?_⟩
      intro c hc
      rcases List.mem_cons.1 hc with rfl | hc
      · exact hx
      · exact h c hc
    · refine Or.inr ⟨x :: pre, y, w, vs, rest, rfl, rfl, hy, ?_⟩
      intro c hc
      rcases List.mem_cons.1 hc with rfl | hc
      · exact hx
      · exact hp c hc
  | @word b w s ws hne hw _ _ _ _ =>
    cases w with
    | nil => exact absurd rfl hne
    | cons x w => exact Or.inr ⟨[], x, w, ws, w ++ s, rfl, rfl, hw x (by simp), by simp⟩

/-- C82: the name of a field gives an identifier for the constant exactly if the first letter or digit of the name is a
letter. So the valid names `_` and `_1` are refused. -/
theorem C82_const (n : Bytes) :
    (Heck.constIdent n).isSome ↔ ∃ pre x rest, n = pre ++ x :: rest ∧ inClass alpha x ∧ ∀ c ∈ pre, ¬ inClass alnum c := by
  have happ := Heck.apply_eq .shoutySnake n
  rcases words_front (Heck.words_of n) with ⟨hw, hno⟩ | ⟨pre, x, w, vs, rest, hs, hw, hx, hp⟩
  · rw [hw] at happ
    have : Heck.constIdent n = none := by rw [Heck.constIdent, happ]; rfl
    rw [this]
    constructor
    · intro h; cases h
    · rintro ⟨pre, x, rest, rfl, hx, _⟩
      refine absurd ?_ (hno x (by simp))
      rw [Heck.alnum_iff]
      rcases (Heck.alpha_iff x).1 hx with h | h <;> simp [Heck.isAlnum, h]
  · rw [hw] at happ
    have hc : Heck.constIdent n = if isDigit (Heck.toUpper x) then none else some (Heck.apply .shoutySnake n) := by
      rw [Heck.constIdent, happ]; rfl
    rw [hc, Heck.digit_upper]
    have hfirst : ∀ {pre' : Bytes} {x' : Byte} {rest' : Bytes}, n = pre' ++ x' :: rest' → inClass alpha x' →
        (∀ c ∈ pre', ¬ inClass alnum c) → x' = x := by
      intro pre' x' rest' h hx' hp'
      have hx'' : inClass alnum x' := by
        rw [Heck.alnum_iff]
        rcases (Heck.alpha_iff x').1 hx' with h | h <;> simp [Heck.isAlnum, h]
      rw [hs] at h
      rcases List.append_eq_append_iff.1 h with ⟨l, h1, h2⟩ | ⟨l, h1, h2⟩
      · cases l with
        | nil => exact (List.cons.inj h2).1.symm
        | cons c l =>
          simp only [List.cons_append, List.cons.injEq] at h2
          exact absurd (h2.1 ▸ hx) (hp' c (by rw [h1]; simp))
      · cases l with
        | nil => exact (List.cons.inj h2).1
        | cons c l =>
          simp only [List.cons_append, List.cons.injEq] at h2
          exact absurd (h2.1 ▸ hx'') (hp c (by rw [h1]; simp))
    cases hd : isDigit x with
    | true =>
      simp only [if_true, Option.isSome_none, Bool.false_eq_true, false_iff]
      rintro ⟨pre', x', rest', h1, h2, h3⟩
      have := hfirst h1 h2 h3
      subst this
      rw [Heck.alpha_iff, Heck.digit_not_lower hd, Heck.digit_not_upper hd] at h2
      simp at h2
    | false =>
      simp only [Bool.false_eq_true, if_false, Option.isSome_some, true_iff]
      refine ⟨pre, x, rest, hs, ?_, hp⟩
      rw [Heck.alnum_iff] at hx
      rw [Heck.alpha_iff]
      simpa [Heck.isAlnum, hd] using hx

/-- C82: two names give the same constant exactly if they have the same words up to case. -/
theorem C82_const_same {n n' : Bytes} {ws vs : List Bytes} (h : (Heck.constIdent n).isSome) (h' : (Heck.constIdent n').isSome)
    (hw : WordsOf [] n ws) (hv : WordsOf [] n' vs) : Heck.constIdent n = Heck.constIdent n' ↔ SameWords ws vs := by
  rw [← C82_same (r := .shoutySnake) ⟨by decide, by decide⟩ hw hv]
  have key : ∀ {n}, (Heck.constIdent n).isSome → Heck.constIdent n = some (Heck.apply .shoutySnake n) := by
    intro n h
    rw [Heck.constIdent] at h ⊢
    cases ha : Heck.apply .shoutySnake n with
    | nil => rw [ha] at h; cases h
    | cons c t =>
      rw [ha] at h
      simp only at h ⊢
      split at h
      · cases h
      · next hd => rw [if_neg hd]
  rw [key h, key h', Option.some.injEq]

/-- C82 and C59: which structs compile as metric groups, with the constants as they are. -/
theorem C82_group {E : Type} (fields : List (MetricField E × Member)) :
    (deriveMetricGroup Heck.constIdent fields).isSome ↔
      (∀ p ∈ fields, MetricAttrsOk p.1.attrs) ∧ (∀ p ∈ fields, MemberFits p.1 p.2) ∧
      (∀ p ∈ fields, ∀ n, fieldName p.1 = some n → MetricNameRe n ∧
        ∃ pre x rest, n = pre ++ x :: rest ∧ inClass alpha x ∧ ∀ c ∈ pre, ¬ inClass alnum c) ∧
      (fields.filterMap fun p => fieldName p.1).Pairwise fun n n' => ¬ ∃ ws vs, WordsOf [] n ws ∧ WordsOf [] n' vs ∧ SameWords ws vs := by
  rw [C59_compiles]
  have hpair : (∀ p ∈ fields, ∀ n, fieldName p.1 = some n → MetricNameRe n ∧ (Heck.constIdent n).isSome) →
      (((fields.filterMap fun p => fieldName p.1).map Heck.constIdent).Nodup ↔
        (fields.filterMap fun p => fieldName p.1).Pairwise fun n n' =>
          ¬ ∃ ws vs, WordsOf [] n ws ∧ WordsOf [] n' vs ∧ SameWords ws vs) := by
    intro hval
    rw [List.Nodup, List.pairwise_map]
    have hmem : ∀ n ∈ fields.filterMap fun p => fieldName p.1, (Heck.constIdent n).isSome := by
      intro n hn
      obtain ⟨p, hp, hn⟩ := List.mem_filterMap.1 hn
      exact (hval p hp n hn).2
    have hiff : ∀ n n', n ∈ fields.filterMap (fun p => fieldName p.1) → n' ∈ fields.filterMap (fun p => fieldName p.1) →
        (Heck.constIdent n ≠ Heck.constIdent n' ↔ ¬ ∃ ws vs, WordsOf [] n ws ∧ WordsOf [] n' vs ∧ SameWords ws vs) := by
      intro n n' hn hn'
      rw [Ne, C82_const_same (hmem n hn) (hmem n' hn') (Heck.words_of n) (Heck.words_of n')]
      refine not_congr ⟨fun h => ⟨_, _, Heck.words_of n, Heck.words_of n', h⟩, ?_⟩
      rintro ⟨ws, vs, h1, h2, h3⟩
      rw [Heck.words_iff] at h1 h2
      subst h1 h2
      exact h3
    constructor
    · intro h; exact h.imp_of_mem fun hn hn' hne => (hiff _ _ hn hn').1 hne
    · intro h; exact h.imp_of_mem fun hn hn' hne => (hiff _ _ hn hn').2 hne
  constructor
  · rintro ⟨h1, h2, h3, h4⟩
    exact ⟨h1, h2, fun p hp n hn => ⟨(h3 p hp n hn).1, (C82_const n).1 (h3 p hp n hn).2⟩, (hpair h3).1 h4⟩
  · rintro ⟨h1, h2, h3, h4⟩
    have h3' : ∀ p ∈ fields, ∀ n, fieldName p.1 = some n → MetricNameRe n ∧ (Heck.constIdent n).isSome :=
      fun p hp n hn => ⟨(h3 p hp n hn).1, (C82_const n).2 (h3 p hp n hn).2⟩
    exact ⟨h1, h2, h3', (hpair h3').2 h4⟩

/-! ## Raw identifiers -/

/-- C82: the text of a raw identifier starts with `r#`, which is a word: a variant `r#type` is shown as `r_type`. -/
theorem C82_raw (s : Bytes) {ws : List Bytes} (h : WordsOf [] s ws) : WordsOf [] (b!"r#" ++ s) (b!"r" :: ws) := by
  have hshift : ∀ {b s : Bytes} {ws : List Bytes}, WordsOf b s ws → ∀ b', (∀ u, Heck.lastCase (b' ++ u) = Heck.lastCase (b ++ u)) →
      WordsOf b' s ws := by
    intro b s ws h
    induction h with
    | nil => intro b' _; exact .nil
    | sep hx _ ih =>
      intro b' hb
      exact .sep hx (ih _ (fun u => by rw [List.append_assoc, List.append_assoc, hb]))
    | @word b w s ws hne hw hin hend _ ih =>
      intro b' hb
      have hcut : ∀ u v, CutAt (b' ++ u) v ↔ CutAt (b ++ u) v := by
        intro u v
        cases v with
        | nil => constructor <;> rintro ⟨_, _, _, _, h, _⟩ <;> cases h
        | cons c v => rw [Heck.cut_iff, Heck.cut_iff, hb]
      refine .word hne hw (fun u v huv hu hv => ?_) ?_ (ih _ (fun u => by rw [List.append_assoc, List.append_assoc, hb]))
      · rw [hcut]; exact hin u v huv hu hv
      · rw [hcut]; exact hend
  refine .word (w := b!"r") (by simp) ?_ ?_ (Or.inl ?_) (.sep ?_ (hshift h _ ?_))
  · intro x hx
    rw [List.mem_singleton.1 hx, Heck.alnum_iff]; decide
  · intro u v huv hu hv
    cases u with
    | nil => exact absurd rfl hu
    | cons x u =>
      simp only [List.cons_append, List.cons.injEq] at huv
      exact absurd (List.append_eq_nil_iff.1 huv.2.symm).2 hv
  · intro x hx
    simp at hx
    rw [← hx, Heck.alnum_iff]; decide
  · rw [Heck.alnum_iff]; decide
  · intro u
    induction u using List.reverseRecOn with
    | nil => rfl
    | append_singleton u c ih =>
      rw [← List.append_assoc, ← List.append_assoc, Heck.lastCase_snoc, Heck.lastCase_snoc, ih]

/-! ## Examples -/

example : Heck.words b!"HTTPServerV2Beta_x-9" = [b!"HTTP", b!"Server", b!"V2", b!"Beta", b!"x", b!"9"] := by decide
example : Heck.apply .snake b!"DeleteAll" = b!"delete_all" := by decide
example : Heck.apply .shoutyKebab b!"ImATeapot" = b!"IM-A-TEAPOT" := by decide
example : Heck.apply .lowerCamel b!"XMLHttpRequest" = b!"xmlHttpRequest" := by decide
/-- Two variants with one label. -/
example : Heck.apply .snake b!"HttpError" = Heck.apply .snake b!"HTTPError" := by decide
/-- Camel case is not kept by camel case. -/
example : Heck.apply .upperCamel (Heck.apply .upperCamel b!"a_b_c") ≠ Heck.apply .upperCamel b!"a_b_c" := by decide
example : Heck.apply .upperCamel b!"a_1" = Heck.apply .upperCamel b!"a1" := by decide
example : Heck.constIdent b!"_" = none ∧ Heck.constIdent b!"_1x" = none ∧ Heck.constIdent b!"_ab" = some b!"AB" := by decide

theorem exCamel : CamelName b!"Http2Error" := by
  refine ⟨[b!"Http2", b!"Error"], by simp, ?_, rfl⟩
  have hs : ∀ z : Byte, isLower z = true ∨ isDigit z = true → inClass (small ++ digit) z := by
    intro z hz
    rcases hz with hz | hz
    · obtain ⟨p, hp, h⟩ := (Heck.small_iff z).2 hz
      exact ⟨p, List.mem_append_left _ hp, h⟩
    · obtain ⟨p, hp, h⟩ := (Heck.digit_iff z).2 hz
      exact ⟨p, List.mem_append_right _ hp, h⟩
  intro w hw
  simp only [List.mem_cons, List.not_mem_nil, or_false] at hw
  rcases hw with rfl | rfl
  · exact ⟨0x48, 0x74, b!"tp2", rfl, (Heck.capital_iff _).2 (by decide), (Heck.small_iff _).2 (by decide), fun z hz => hs z (by revert z; decide)⟩
  · exact ⟨0x45, 0x72, b!"ror", rfl, (Heck.capital_iff _).2 (by decide), (Heck.small_iff _).2 (by decide), fun z hz => hs z (by revert z; decide)⟩

end Measured
