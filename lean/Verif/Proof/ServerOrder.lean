import Verif.Props.Server
import Verif.Spec.ServerOrder

/-!
# What the requests have done on the vectors, exactly
-/

namespace Measured.Server
open Measured.Conc Measured.Spec

theorem mem_updatesBy {U : Type} {x : Tid} {k : Key} {u : U} {l : List (SEvent Key U)} :
    (k, u) ∈ updatesBy x l ↔ .update x k u ∈ l := by
  induction l with
  | nil => simp [updatesBy]
  | cons e l ih =>
    cases e with
    | update y k' u' =>
      simp only [updatesBy]
      by_cases hy : y = x
      · subst hy
        rw [if_pos rfl, List.mem_cons, List.mem_cons, ih]
        simp
      · rw [if_neg hy, ih, List.mem_cons]
        simp [Ne.symm hy]
    | _ => simp [updatesBy, ih]

section
variable {m : Mode} {c : Vec → ShardConf Key} {cap : Nat} {tr : List Event} {s : Sys} {i : Vec}

/-- Who has been counted, from where it is. -/
theorem counted_iff (h : Exec (Step m c) (.new cap) tr s) {g : i.groups.Group} {x : Tid} :
    CountedIn i g tr x ↔ (s.pc x).did i = true ∧ (s.pc x).group i = some g := by
  have hi := taskInv h x
  constructor
  · rintro ⟨k, u, h1, h2⟩
    have hu := mem_updatesBy.2 ((mem_mapEvents (i := i) (by simp)).2 h2)
    cases hd : (s.pc x).did i with
    | false => rw [hi.didnt i hd] at hu; cases hu
    | true =>
      obtain ⟨k', u', g', e1, e2, e3⟩ := hi.did i hd
      rw [e1, List.mem_singleton] at hu
      cases hu
      obtain rfl := (agree h h1 e3).1 rfl
      exact ⟨rfl, e2⟩
  · rintro ⟨hd, hg⟩
    obtain ⟨k, u, g', e1, e2, e3⟩ := hi.did i hd
    rw [hg] at e2
    cases e2
    exact ⟨k, u, e3, (mem_mapEvents (by simp)).1 (mem_updatesBy.1 (by rw [e1]; exact List.mem_singleton.2 rfl))⟩

theorem counted_mono {g : i.groups.Group} {a b : List Event} {x : Tid} (hab : a ⊆ b) (h : CountedIn i g a x) : CountedIn i g b x := by
  obtain ⟨k, u, h1, h2⟩ := h
  exact ⟨k, u, hab h1, hab h2⟩

/-- An entry is made by a request of its group. -/
theorem made_of_mem (h : Exec (Step m c) (.new cap) tr s) {k : Key} {us : List i.Call} (hk : mapOf (mapEvents i tr) k = some us) :
    ∃ g x, .on i (.lab (.encoded x g (some k))) ∈ tr ∧ .on i (.vec (.insert x k)) ∈ tr := by
  obtain ⟨v, hv⟩ := insert_of_mem hk
  have hv := (mem_mapEvents (by simp)).1 hv
  obtain ⟨g, hg, _⟩ := insert_may h hv
  exact ⟨g, v, hg, hv⟩

/-- Who has been counted has an entry. -/
theorem counted_made (h : Exec (Step m c) (.new cap) tr s) {g : i.groups.Group} {x : Tid} (hx : CountedIn i g tr x) : MadeIn i g tr := by
  obtain ⟨k, u, h1, h2⟩ := hx
  have hm := to_map h i
  have hup : updatesOf k (mapEvents i tr) ≠ [] := by
    intro h0
    have := mem_updaters.2 ⟨u, mem_updatesBy.2 ((mem_mapEvents (i := i) (by simp)).2 h2)⟩
    rw [List.eq_nil_of_length_eq_zero (by rw [length_updaters, h0]; rfl : (updaters k (mapEvents i tr)).length = 0)] at this
    cases this
  cases hk : mapOf (mapEvents i tr) k with
  | none =>
    rw [C23_updates hm k, removedOf_nil fun v r => no_remove h i v k r, (s_inv hm).abs, hk] at hup
    exact absurd rfl hup
  | some us =>
    obtain ⟨g', v, e1, e2⟩ := made_of_mem h hk
    obtain rfl := (agree h h1 e1).1 rfl
    exact ⟨v, k, e1, e2⟩

theorem insert_there {U : Type} {k : Key} {v : Tid} {l : List (SEvent Key U)} (h : .insert v k ∈ l) (hr : ∀ v r, .remove v k r ∉ l) :
    mapOf l k ≠ none := by
  induction l using List.reverseRecOn with
  | nil => cases h
  | append_singleton l e ih =>
    rw [mapOf, List.foldl_append]
    change mapAfter (mapOf l) e k ≠ none
    have old : .insert v k ∈ l → mapOf l k ≠ none := fun h => ih h fun v r hm => hr v r (List.mem_append_left _ hm)
    rcases List.mem_append.1 h with h | h
    · have := old h
      cases e with
      | insert v' k' =>
        simp only [mapAfter]
        split <;> simp [this]
      | update v' k' u =>
        simp only [mapAfter]
        split
        · simpa using this
        · exact this
      | remove v' k' r =>
        simp only [mapAfter]
        split
        · rename_i hk
          subst hk
          exact absurd (List.mem_append_right _ (List.mem_singleton.2 rfl)) (hr v' r)
        · exact this
      | _ => exact this
    · rw [List.mem_singleton] at h
      subst h
      simp [mapAfter]

end

section
variable {m : Mode} {c : Vec → ShardConf Key} {cap : Nat} {A B R : List Event} {s : Sys} {i : Vec} {t : Tid}

theorem mapEvents_pass (i : Vec) (t : Tid) (A B : List Event) :
    mapEvents i (A ++ .on i (.vec (.startPass t)) :: B) = mapEvents i A ++ .startPass t :: mapEvents i B := by
  rw [mapEvents_append, mapEvents_cons]
  simp [mapEvents, onVecs, onVector, vecEvents]

/-- A metric that is there stays there. -/
theorem made_there (h : Exec (Step m c) (.new cap) (A ++ .on i (.vec (.startPass t)) :: B ++ R) s) {g : i.groups.Group}
    (hg : MadeIn i g A) : ∃ k y, .on i (.lab (.encoded y g (some k))) ∈ A ∧ SparseThere t (mapEvents i A) (mapEvents i B) k := by
  obtain ⟨x, k, h1, h2⟩ := hg
  refine ⟨k, x, h1, fun p hp => ?_⟩
  obtain ⟨B', ⟨B'', rfl⟩, rfl⟩ := mapEvents_prefix hp
  rw [show A ++ .on i (.vec (.startPass t)) :: (B' ++ B'') ++ R = (A ++ .on i (.vec (.startPass t)) :: B') ++ (B'' ++ R) by simp] at h
  obtain ⟨s₂, h2', _⟩ := exec_split _ _ h
  rw [← mapEvents_pass]
  refine insert_there (v := x) ((mem_mapEvents (by simp)).2 (List.mem_append_left _ h2)) fun v r => no_remove h2' i v k r

/-- At every moment of a pass, a metric has exactly as many updates as requests have been counted for its group. -/
theorem exact_in (h : Exec (Step m c) (.new cap) (A ++ .on i (.vec (.startPass t)) :: B ++ R) s) {p : List (SEvent Key i.Call)}
    (hp : p <+: mapEvents i B) {k : Key} {us : List i.Call} (hk : mapOf (mapEvents i A ++ .startPass t :: p) k = some us)
    {g : i.groups.Group} {y : Tid} (hg : .on i (.lab (.encoded y g (some k))) ∈ A ++ .on i (.vec (.startPass t)) :: B) :
    ExactIn i t A B g us.length := by
  obtain ⟨B', hB, rfl⟩ := mapEvents_prefix hp
  refine ⟨B', hB, ?_⟩
  obtain ⟨B'', rfl⟩ := hB
  obtain ⟨s₁, h1, _⟩ := exec_split _ R h
  rw [show A ++ .on i (.vec (.startPass t)) :: (B' ++ B'') = (A ++ .on i (.vec (.startPass t)) :: B') ++ B'' by simp] at h1 hg
  obtain ⟨s₂, h2, _⟩ := exec_split _ B'' h1
  rw [← mapEvents_pass] at hk
  have hus := map_updates h2 hk
  refine ⟨?_, updaters k (mapEvents i (A ++ .on i (.vec (.startPass t)) :: B')), ?_, by rw [length_updaters, ← hus], fun x => ?_⟩
  · obtain ⟨g', v, e1, e2⟩ := made_of_mem h2 hk
    obtain rfl := (agree h1 hg (List.mem_append_left _ e1)).1 rfl
    exact ⟨v, k, e1, e2⟩
  · rw [List.nodup_iff_count_le_one]
    intro x
    refine Nat.le_trans (count_updaters k x _) ?_
    have hi := taskInv h2 x
    cases hd : (s₂.pc x).did i with
    | false => rw [hi.didnt i hd]; exact Nat.zero_le _
    | true => obtain ⟨_, _, _, e, _⟩ := hi.did i hd; rw [e]; exact Nat.le_refl _
  · rw [mem_updaters]
    constructor
    · rintro ⟨u, hu⟩
      have hi := taskInv h2 x
      cases hd : (s₂.pc x).did i with
      | false => rw [hi.didnt i hd] at hu; cases hu
      | true =>
        obtain ⟨k', u', g', e1, e2, e3⟩ := hi.did i hd
        rw [e1, List.mem_singleton] at hu
        cases hu
        obtain rfl := (agree h1 hg (List.mem_append_left _ e3)).1 rfl
        exact (counted_iff h2).2 ⟨hd, e2⟩
    · rintro ⟨k', u, h3, h4⟩
      obtain rfl := (agree h1 hg (List.mem_append_left _ h3)).2 rfl
      exact ⟨u, mem_updatesBy.2 ((mem_mapEvents (by simp)).2 h4)⟩

end

/-! ## Sums -/

/-- Requests counted under different keys, put together: at least those with `S`, and none but those with `R`. -/
theorem counted_together {G : Type} {S R : G → Tid → Prop} (l : List (G × Nat)) (hn : (l.map Prod.fst).Nodup)
    (hl : ∀ q ∈ l, ∃ ts : List Tid, ts.Nodup ∧ ts.length = q.2 ∧ (∀ x, S q.1 x → x ∈ ts) ∧ ∀ x ∈ ts, R q.1 x)
    (hR : ∀ g g' x, R g x → R g' x → g = g') :
    ∃ ts : List Tid, ts.Nodup ∧ ts.length = (l.map Prod.snd).sum ∧ (∀ q ∈ l, ∀ x, S q.1 x → x ∈ ts) ∧ ∀ x ∈ ts, ∃ q ∈ l, R q.1 x := by
  induction l with
  | nil => exact ⟨[], List.nodup_nil, rfl, by simp, by simp⟩
  | cons q l ih =>
    rw [List.map_cons, List.nodup_cons] at hn
    obtain ⟨ts, h1, h2, h3, h4⟩ := ih hn.2 fun q hq => hl q (List.mem_cons_of_mem _ hq)
    obtain ⟨us, g1, g2, g3, g4⟩ := hl q List.mem_cons_self
    refine ⟨us ++ ts, List.nodup_append.2 ⟨g1, h1, ?_⟩, by simp [g2, h2], fun q' hq' x hx => ?_, fun x hx => ?_⟩
    · rintro a ha b hb rfl
      obtain ⟨q', hq', hx⟩ := h4 a hb
      have := hR q.1 q'.1 a (g4 a ha) hx
      exact hn.1 (this ▸ List.mem_map_of_mem hq')
    · rcases List.mem_cons.1 hq' with rfl | hq'
      · exact List.mem_append_left _ (g3 x hx)
      · exact List.mem_append_right _ (h3 q' hq' x hx)
    · rcases List.mem_append.1 hx with hx | hx
      · exact ⟨q, List.mem_cons_self, g4 x hx⟩
      · obtain ⟨q', hq', hx⟩ := h4 x hx
        exact ⟨q', List.mem_cons_of_mem _ hq', hx⟩

theorem reads_str {rf : Bytes → Option F64} {ls : Labels} {ts : List (Bytes × Bytes)} (h : LabelsRead rf ls ts) {n v : Bytes}
    (hs : ∀ l ∈ ls, l.1 = n → ∃ z, l.2 = .str z) : (n, v) ∈ ts ↔ (n, LVal.str v) ∈ ls := by
  induction h with
  | nil => simp
  | @cons l t ls ts hr _ ih =>
    rw [List.mem_cons, List.mem_cons, ih fun l hl => hs l (List.mem_cons_of_mem _ hl)]
    refine or_congr_left ?_
    obtain ⟨h1, h2⟩ := hr
    obtain ⟨ln, lv⟩ := l
    obtain ⟨tn, tv⟩ := t
    simp only at h1 h2
    subst h1
    simp only [Prod.mk.injEq]
    refine and_congr_right fun hn => ?_
    obtain ⟨z, hz⟩ := hs _ List.mem_cons_self hn.symm
    simp only at hz
    subst hz
    have h2 : tv = z := h2
    subst h2
    simp

open Classical in
/-- What a line adds to a sum. -/
noncomputable def lineTotal (name p meth : Bytes) (e : Expected) : Int :=
  if e.name = name ∧ (b!"path", LVal.str p) ∈ e.labels ∧ (b!"method", LVal.str meth) ∈ e.labels then intOf e.value else 0

theorem reads_total {rf : Bytes → Option F64} {es : List Expected} {ss : List Sample} (h : List.Forall₂ (SampleReads rf) es ss)
    (hs : ∀ e ∈ es, ∀ l ∈ e.labels, l.1 = b!"path" ∨ l.1 = b!"method" → ∃ z, l.2 = LVal.str z) (f : Family) (hf : f.samples = ss)
    (name p meth : Bytes) : shownTotal f name p meth = (es.map (lineTotal name p meth)).sum := by
  rw [shownTotal, hf]
  clear hf
  induction h with
  | nil => rfl
  | @cons e s es ss hr _ ih =>
    have ih := ih fun e he => hs e (List.mem_cons_of_mem _ he)
    obtain ⟨h1, h2, h3⟩ := hr
    have e1 := reads_str (v := p) h2 fun l hl hn => hs e List.mem_cons_self l hl (.inl hn)
    have e2 := reads_str (v := meth) h2 fun l hl hn => hs e List.mem_cons_self l hl (.inr hn)
    rw [List.map_cons, List.sum_cons, ← ih, lineTotal, List.filter_cons]
    by_cases hc : s.name = name ∧ (b!"path", p) ∈ s.labels ∧ (b!"method", meth) ∈ s.labels
    · rw [if_pos (decide_eq_true hc), if_pos (by rw [← h1, ← e1, ← e2]; exact hc), List.map_cons, List.sum_cons, h3]
    · rw [if_neg (by simpa using hc), if_neg (by rw [← h1, ← e1, ← e2]; exact hc), zero_add]

/-- The series has the path and the method. -/
def Of (i : Vec) (p meth : Bytes) (g : i.groups.Group) : Prop :=
  (b!"path", LVal.str p) ∈ seriesLabels i g ∧ (b!"method", LVal.str meth) ∈ seriesLabels i g

theorem sum_flatMap {X Y : Type} (l : List X) (f : X → List Y) (w : Y → Int) :
    ((l.flatMap f).map w).sum = (l.map fun x => ((f x).map w).sum).sum := by
  induction l with
  | nil => rfl
  | cons x l ih => rw [List.flatMap_cons, List.map_append, List.sum_append, ih, List.map_cons, List.sum_cons]

open Classical in
theorem sum_filter {G : Type} (l : List (G × Nat)) (P : G → Prop) (w : G × Nat → Int) (hw : ∀ q, w q = if P q.1 then (q.2 : Int) else 0) :
    (l.map w).sum = (((l.filter fun q => P q.1).map Prod.snd).sum : Nat) := by
  induction l with
  | nil => rfl
  | cons q l ih =>
    rw [List.map_cons, List.sum_cons, ih, hw, List.filter_cons]
    by_cases h : P q.1 <;> simp [h]

theorem line_other {name p meth : Bytes} {e : Expected} (h : e.name ≠ name) : lineTotal name p meth e = 0 := if_neg fun hc => h hc.1

open Classical in
theorem histogram_total (le : List F64) (g : Vec.duration.groups.Group) (xs : List F64) (p meth : Bytes) :
    ((shownHistogram le (b!"http_request_duration") (seriesLabels .duration g) xs).map
      (lineTotal (countName .duration) p meth)).sum = if Of .duration p meth g then (xs.length : Int) else 0 := by
  rw [shownHistogram, List.map_append, List.sum_append, List.map_map]
  have h1 : b!"http_request_duration" ++ b!"_bucket" ≠ countName .duration := by decide
  have h2 : b!"http_request_duration" ++ b!"_sum" ≠ countName .duration := by decide
  have h3 : b!"http_request_duration" ++ b!"_count" = countName .duration := by decide
  rw [List.sum_eq_zero, zero_add]
  · simp only [List.map_cons, List.map_nil, List.sum_cons, List.sum_nil, add_zero]
    rw [line_other h1, line_other h2, zero_add, zero_add]
    by_cases ho : Of .duration p meth g
    · rw [if_pos ho, lineTotal, if_pos ⟨h3, ho⟩]; rfl
    · rw [if_neg ho, lineTotal, if_neg fun h => ho h.2]
  · intro x hx
    obtain ⟨b, _, rfl⟩ := List.mem_map.1 hx
    exact line_other h1

open Classical in
/-- The sum over a family, from its entries. -/
theorem family_total {rf : Bytes → Option F64} {le : List F64} {i : Vec} {was : i.groups.Group → Nat → Prop}
    {there : i.groups.Group → Prop} {f : Family} (h : (countClaim le i was there).text rf f)
    (hs : ∀ g a, was g a → ∀ l ∈ seriesLabels i g, l.1 = b!"path" ∨ l.1 = b!"method" → ∃ z, l.2 = LVal.str z) (p meth : Bytes) :
    ∃ l : List (i.groups.Group × Nat), (l.map Prod.fst).Nodup ∧ (∀ q ∈ l, was q.1 q.2) ∧ (∀ g, there g → g ∈ l.map Prod.fst) ∧
      shownTotal f (countName i) p meth = (((l.filter fun q => Of i p meth q.1).map Prod.snd).sum : Nat) := by
  cases i with
  | requests =>
    obtain ⟨l, ss, ⟨n, w, th⟩, rfl, hr⟩ := h
    refine ⟨l, n, w, th, ?_⟩
    rw [reads_total hr ?_ _ rfl, sum_flatMap]
    · refine sum_filter l (Of .requests p meth) _ fun q => ?_
      show lineTotal (countName .requests) p meth ⟨countName .requests, seriesLabels .requests q.1, .int (q.2 : Nat)⟩ + 0 = _
      rw [add_zero]
      by_cases ho : Of .requests p meth q.1
      · rw [if_pos ho, lineTotal, if_pos ⟨rfl, ho⟩]; rfl
      · rw [if_neg ho, lineTotal, if_neg fun h => ho h.2]
    · intro e he
      obtain ⟨q, hq, he⟩ := List.mem_flatMap.1 he
      rw [List.mem_singleton.1 he]
      exact hs q.1 q.2 (w q hq)
  | responses =>
    obtain ⟨l, ss, ⟨n, w, th⟩, rfl, hr⟩ := h
    refine ⟨l, n, w, th, ?_⟩
    rw [reads_total hr ?_ _ rfl, sum_flatMap]
    · refine sum_filter l (Of .responses p meth) _ fun q => ?_
      show lineTotal (countName .responses) p meth ⟨countName .responses, seriesLabels .responses q.1, .int (q.2 : Nat)⟩ + 0 = _
      rw [add_zero]
      by_cases ho : Of .responses p meth q.1
      · rw [if_pos ho, lineTotal, if_pos ⟨rfl, ho⟩]; rfl
      · rw [if_neg ho, lineTotal, if_neg fun h => ho h.2]
    · intro e he
      obtain ⟨q, hq, he⟩ := List.mem_flatMap.1 he
      rw [List.mem_singleton.1 he]
      exact hs q.1 q.2 (w q hq)
  | duration =>
    obtain ⟨l, ss, ⟨n, w, th⟩, rfl, hr⟩ := h
    change List (Vec.duration.groups.Group × List F64) at l
    change List.Forall₂ (SampleReads rf)
      (l.flatMap fun q => shownHistogram le (b!"http_request_duration") (seriesLabels .duration q.1) q.2) ss at hr
    refine ⟨l.map fun q => (q.1, q.2.length), ?_, ?_, ?_, ?_⟩
    · rw [List.map_map]; exact n
    · intro q hq
      obtain ⟨q', hq', rfl⟩ := List.mem_map.1 hq
      exact (w q' hq').1
    · intro g hg
      rw [List.map_map]; exact th g hg
    · rw [reads_total hr ?_ _ rfl, sum_flatMap,
        ← sum_filter _ (Of .duration p meth) (fun q => if Of .duration p meth q.1 then (q.2 : Int) else 0) fun _ => rfl, List.map_map]
      · congr 1
        refine List.map_congr_left fun q _ => ?_
        rw [histogram_total, Function.comp_apply]
      · intro e he l' hl' hn
        obtain ⟨q, hq, he⟩ := List.mem_flatMap.1 he
        have hold : l' ∈ seriesLabels .duration q.1 → ∃ z, l'.2 = LVal.str z := fun hl => hs q.1 q.2.length (w q hq).1 l' hl hn
        have hle : ∀ v, l' ≠ (b!"le", v) := by
          rintro v rfl
          rcases hn with h | h
          · exact absurd (show b!"le" = b!"path" from h) (by decide)
          · exact absurd (show b!"le" = b!"method" from h) (by decide)
        rcases List.mem_append.1 he with hx | hx
        · obtain ⟨b, _, rfl⟩ := List.mem_map.1 hx
          rcases List.mem_append.1 hl' with hl' | hl'
          · exact hold hl'
          · exact absurd (List.mem_singleton.1 hl') (hle _)
        · simp only [List.mem_cons, List.not_mem_nil, or_false] at hx
          rcases hx with rfl | rfl | rfl
          · rcases List.mem_append.1 hl' with hl' | hl'
            · exact hold hl'
            · exact absurd (List.mem_singleton.1 hl') (hle _)
          · exact hold hl'
          · exact hold hl'

end Measured.Server
