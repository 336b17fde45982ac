import Verif.Proof.ServerOrder

/-!
# C87: the three families of the example server beside each other
-/

namespace Measured.Server
open Measured.Conc Measured.Spec

/-! ## Series with a path and a method -/

theorem method_shown (a : Method) : (Lab.method a).shown = .str (methodText a) := by cases a <;> rfl

theorem methodText_inj {a b : Method} (h : methodText a = methodText b) : a = b := by
  cases a <;> cases b <;> first | rfl | exact absurd h (by decide)

theorem of_request (r : Req) (p : Bytes) (a : Method) : Of .requests p (methodText a) r.group ↔ r.path = p ∧ r.method = a := by
  rw [Of, labels_shown, method_shown]
  simp only [List.mem_cons, List.not_mem_nil, or_false, Prod.mk.injEq, LVal.str.injEq, show b!"path" ≠ b!"method" by decide,
    show b!"method" ≠ b!"path" by decide, true_and, false_and, false_or, or_false]
  exact and_congr eq_comm ⟨fun h => (methodText_inj h).symm, fun h => by rw [h]⟩

theorem of_duration (r : Req) (p : Bytes) (a : Method) : Of .duration p (methodText a) r.group ↔ r.path = p ∧ r.method = a :=
  of_request r p a

theorem of_response (r : Req) (st : Nat) (p : Bytes) (a : Method) :
    Of .responses p (methodText a) (r.response st) ↔ r.path = p ∧ r.method = a := by
  rw [Of, responses_shown, method_shown]
  simp only [List.mem_cons, List.not_mem_nil, or_false, Prod.mk.injEq, LVal.str.injEq, show b!"path" ≠ b!"method" by decide,
    show b!"method" ≠ b!"path" by decide, show b!"path" ≠ b!"status" by decide, show b!"method" ≠ b!"status" by decide,
    true_and, false_and, false_or, or_false]
  exact and_congr eq_comm ⟨fun h => (methodText_inj h).symm, fun h => by rw [h]⟩

section
variable {m : Mode} {c : Vec → ShardConf Key} {cap : Nat} {tr : List Event} {s : Sys}

theorem counted_may (h : Exec (Step m c) (.new cap) tr s) {i : Vec} {g : i.groups.Group} {x : Tid} (hx : CountedIn i g tr x) :
    MayIn i g tr x := by
  obtain ⟨h1, h2⟩ := (counted_iff h).1 hx
  exact did_may (taskInv h x) h1 h2

theorem sure_counted (h : Exec (Step m c) (.new cap) tr s) {i : Vec} {g : i.groups.Group} {x : Tid} (hx : SureIn i g tr x) :
    CountedIn i g tr x := (counted_iff h).2 (sure_did (taskInv h x) hx)

theorem made_may (h : Exec (Step m c) (.new cap) tr s) {i : Vec} {g : i.groups.Group} (hg : MadeIn i g tr) :
    ∃ x, MayIn i g tr x := by
  obtain ⟨x, k, h1, h2⟩ := hg
  obtain ⟨g', h3, h4⟩ := insert_may h h2
  obtain rfl := (agree h h1 h3).1 rfl
  exact ⟨x, h4⟩

theorem may_labels {i : Vec} {g : i.groups.Group} {x : Tid} (h : MayIn i g tr x) :
    ∀ l ∈ seriesLabels i g, l.1 = b!"path" ∨ l.1 = b!"method" → ∃ z, l.2 = LVal.str z := by
  have key : ∀ (r : Req) (l : Bytes × LVal), l ∈ [(b!"path", LVal.str r.path), (b!"method", (Lab.method r.method).shown)] →
      ∃ z, l.2 = LVal.str z := by
    intro r l hl
    simp only [List.mem_cons, List.not_mem_nil, or_false] at hl
    rcases hl with rfl | rfl
    · exact ⟨_, rfl⟩
    · exact ⟨_, method_shown _⟩
  intro l hl hn
  cases i with
  | requests =>
    obtain ⟨r, rfl, _⟩ := h
    exact key r l hl
  | duration =>
    obtain ⟨r, rfl, _⟩ := h
    exact key r l hl
  | responses =>
    obtain ⟨r, st, rfl, _⟩ := h
    rw [responses_shown] at hl
    simp only [List.mem_cons, List.not_mem_nil, or_false] at hl
    rcases hl with rfl | rfl | rfl
    · exact ⟨_, rfl⟩
    · exact ⟨_, method_shown _⟩
    · rcases hn with hn | hn
      · exact absurd (show b!"status" = b!"path" from hn) (by decide)
      · exact absurd (show b!"status" = b!"method" from hn) (by decide)

/-- Who has been answered has been timed before. -/
theorem responded_timed (h : Exec (Step m c) (.new cap) tr s) {r : Req} {st : Nat} {x : Tid}
    (hx : CountedIn .responses (r.response st) tr x) : CountedIn .duration r.group tr x := by
  obtain ⟨h1, h2⟩ := (counted_iff h).1 hx
  have hb : MayIn .responses (r.response st) tr x := counted_may h hx
  obtain ⟨r', st', he, hb, _⟩ := hb
  have hreq := ((taskInv h x).began r').1 hb
  refine (counted_iff h).2 ⟨?_, ?_⟩
  · clear hreq hb h2
    generalize s.pc x = q at h1
    induction q with
    | dead q ih => exact ih h1
    | _ => first | rfl | cases h1
  · rw [Pc.group, hreq]
    have e0 := congrFun he (0 : Fin 3)
    have e1 := congrFun he (1 : Fin 3)
    have e0 : Lab.path r'.path = .path r.path := e0
    have e1 : Lab.method r'.method = .method r.method := e1
    cases e0' : r'; cases e1' : r
    rw [e0', e1'] at e0 e1
    cases e0; cases e1
    rfl

end

section
variable {m : Mode} {c : Vec → ShardConf Key} {cap : Nat} {A B R : List Event} {s : Sys} {i : Vec} {t : Tid}
  {rf : Bytes → Option F64} {le : List F64} {f : Family}

open Classical in
/-- A sum is the number of some requests: all that had been counted before the pass, and none but those that had been at its
end. -/
theorem total_counts (h : Exec (Step m c) (.new cap) (A ++ .on i (.vec (.startPass t)) :: B ++ R) s)
    (hf : (exactClaim le t A B i).text rf f) (p meth : Bytes) :
    ∃ ts : List Tid, ts.Nodup ∧ (ts.length : Int) = shownTotal f (countName i) p meth ∧
      (∀ g x, Of i p meth g → CountedIn i g A x → x ∈ ts) ∧
      ∀ x ∈ ts, ∃ g, Of i p meth g ∧ CountedIn i g (A ++ .on i (.vec (.startPass t)) :: B) x := by
  obtain ⟨s₁, h1, _⟩ := exec_split _ R h
  obtain ⟨s₀, h0, _⟩ := exec_split A _ h1
  have sub : ∀ {B'}, B' <+: B → A ++ .on i (.vec (.startPass t)) :: B' ⊆ A ++ .on i (.vec (.startPass t)) :: B := fun hB =>
    List.append_subset.2 ⟨List.subset_append_left _ _, fun e he => List.mem_append_right _ (by
      rcases List.mem_cons.1 he with rfl | he
      · exact List.mem_cons_self
      · exact List.mem_cons_of_mem _ (hB.subset he))⟩
  obtain ⟨l, l1, l2, l3, l4⟩ := family_total hf (by
    rintro g a ⟨B', hB, ⟨x, k, e1, e2⟩, _⟩
    obtain ⟨y, hy⟩ := made_may h1 (g := g) ⟨x, k, sub hB e1, sub hB e2⟩
    exact may_labels hy) p meth
  obtain ⟨ts, t1, t2, t3, t4⟩ := counted_together (S := fun g x => CountedIn i g A x)
    (R := fun g x => CountedIn i g (A ++ .on i (.vec (.startPass t)) :: B) x) (l.filter fun q => Of i p meth q.1)
    (l1.sublist (List.Sublist.map _ List.filter_sublist)) (by
      intro q hq
      obtain ⟨B', hB, _, ts, t1, t2, t3⟩ := l2 q (List.mem_filter.1 hq).1
      exact ⟨ts, t1, t2, fun x hx => (t3 x).2 (counted_mono (List.subset_append_left _ _) hx),
        fun x hx => counted_mono (sub hB) ((t3 x).1 hx)⟩) (by
      intro g g' x h2 h3
      have e2 := ((counted_iff h1).1 h2).2
      have e3 := ((counted_iff h1).1 h3).2
      rw [e2] at e3
      exact Option.some.inj e3)
  refine ⟨ts, t1, by rw [t2, l4], fun g x ho hx => ?_, fun x hx => ?_⟩
  · obtain ⟨q, hq, rfl⟩ := List.mem_map.1 (l3 g (counted_made h0 hx))
    exact t3 q (List.mem_filter.2 ⟨hq, decide_eq_true ho⟩) x hx
  · obtain ⟨q, hq, hx⟩ := t4 x hx
    exact ⟨q.1, of_decide_eq_true (List.mem_filter.1 hq).2, hx⟩

end

theorem length_le_of_subset {a b : List Tid} (ha : a.Nodup) (h : a ⊆ b) : a.length ≤ b.length := (ha.subperm h).length_le

theorem own_mem {A B : List Event} {i : Vec} {e : LVEvent Lab i.Call i.groups.n} {x : Event} (hx : ∀ i f, x ≠ .on i f)
    (h : x ∈ A ++ .on i e :: B) : x ∈ A ++ B := by
  simp only [List.mem_append, List.mem_cons] at h ⊢
  rcases h with h | h | h
  · exact .inl h
  · exact absurd h (hx _ _)
  · exact .inr h

/-! ## C87 -/

section
variable {m : Mode} {c : Vec → ShardConf Key} {cap : Nat} {tr : List Event} {s : Sys} {t : Tid}
  {ryu : F64 → Bytes} {rf : Bytes → Option F64}

/-- C87, exact numbers: in the text that a request exports, every number is exactly how many requests had been counted at
some moment while it collected the vector, and no metric is missing that was there when it began. -/
theorem C87_exact (F : FloatText ryu rf) (m' : Mode) (h : Exec (Step m c) (.new cap) tr s)
    (hc : ∀ i k, (c i).shardOf k < (c i).n) (hlen : FewRequests tr) {le : List F64} (hle : thresholds = .ok le)
    (A B C : Vec → List Event) (acc : (i : Vec) → List (Key × List i.Call))
    (htr : ∀ i, tr = A i ++ .on i (.vec (.startPass t)) :: B i ++ .on i (.vec (.endPass t (acc i))) :: C i)
    (hone : ∀ i, .on i (.vec (.startPass t)) ∉ B i) :
    ∃ (out : Bytes) (f : Vec → Family),
      handler m' ryu le (fun i => shownBy t (onVector i (onVecs (B i)))) (TextEnc.new []) = (.ok out, TextEnc.new []) ∧
      readFamilies rf out = some [f .requests, f .responses, f .duration] ∧
      ∀ i, (exactClaim le t (A i) (B i) i).text rf (f i) :=
  scrape_text F m' h hc hlen hle A B C acc htr hone (fun i _ _ _ _ _ hp hm hy => exact_in (htr i ▸ h) hp hm hy)
    fun i _ hg => made_there (htr i ▸ h) hg

variable {le : List F64} {A B C : Vec → List Event} {acc : (i : Vec) → List (Key × List i.Call)} {f : Vec → Family}

/-- C87, never more answers than durations: if the responses are collected before the durations, as the handler does, then
for every path and method the responses with all statuses together are not more than the observed durations. -/
theorem C87_answered (h : Exec (Step m c) (.new cap) tr s)
    (htr : ∀ i, tr = A i ++ .on i (.vec (.startPass t)) :: B i ++ .on i (.vec (.endPass t (acc i))) :: C i)
    (hord : A .responses ++ .on .responses (.vec (.startPass t)) :: B .responses <+: A .duration)
    (hf : ∀ i, (exactClaim le t (A i) (B i) i).text rf (f i)) (p : Bytes) (a : Method) :
    shownTotal (f .responses) b!"http_responses" p (methodText a) ≤
      shownTotal (f .duration) b!"http_request_duration_count" p (methodText a) := by
  obtain ⟨ts, t1, t2, _, t4⟩ := total_counts (htr .responses ▸ h) (hf .responses) p (methodText a)
  obtain ⟨us, u1, u2, u3, _⟩ := total_counts (htr .duration ▸ h) (hf .duration) p (methodText a)
  have h1 := htr .responses ▸ h
  obtain ⟨s₁, h1, _⟩ := exec_split _ _ h1
  refine t2 ▸ u2 ▸ Int.ofNat_le.2 (length_le_of_subset t1 fun x hx => ?_)
  obtain ⟨g, hg, hx⟩ := t4 x hx
  obtain ⟨r, st, rfl, _⟩ := counted_may h1 hx
  exact u3 r.group x ((of_duration r p a).2 ((of_response r st p a).1 hg)) (counted_mono hord.subset (responded_timed h1 hx))

/-- C87, how far the answers can be ahead of the requests: for every path and method, there are not more responses than
requests and those requests that entered the service after the collection of `http_requests` began and were answered before
that of `http_responses` ended. -/
theorem C87_ahead (h : Exec (Step m c) (.new cap) tr s)
    (htr : ∀ i, tr = A i ++ .on i (.vec (.startPass t)) :: B i ++ .on i (.vec (.endPass t (acc i))) :: C i)
    (hf : ∀ i, (exactClaim le t (A i) (B i) i).text rf (f i)) (p : Bytes) (a : Method) (late : List Tid)
    (hlate : ∀ x, RequestFor p a tr x → .enter x ∉ A .requests → (∃ st, .answer x st ∈ A .responses ++ B .responses) → x ∈ late) :
    shownTotal (f .responses) b!"http_responses" p (methodText a) ≤
      shownTotal (f .requests) b!"http_requests" p (methodText a) + late.length := by
  obtain ⟨ts, t1, t2, _, t4⟩ := total_counts (htr .responses ▸ h) (hf .responses) p (methodText a)
  obtain ⟨us, u1, u2, u3, _⟩ := total_counts (htr .requests ▸ h) (hf .requests) p (methodText a)
  have h1 := htr .responses ▸ h
  obtain ⟨s₁, h1, _⟩ := exec_split _ _ h1
  have h0 := htr .requests ▸ h
  rw [List.append_assoc] at h0
  obtain ⟨s₀, h0, _⟩ := exec_split (A .requests) _ h0
  refine t2 ▸ u2 ▸ Int.ofNat_le.2 (Nat.le_trans (length_le_of_subset (b := us ++ late) t1 fun x hx => ?_)
    (Nat.le_of_eq List.length_append))
  obtain ⟨g, hg, hx⟩ := t4 x hx
  obtain ⟨r, st, rfl, hb, ha⟩ := counted_may h1 hx
  obtain ⟨hp, hm⟩ := (of_response r st p a).1 hg
  have hb' : .begin x r ∈ tr := by rw [htr .responses]; exact List.mem_append_left _ hb
  by_cases he : .enter x ∈ A .requests
  · refine List.mem_append_left _ (u3 r.group x ((of_request r p a).2 ⟨hp, hm⟩) (sure_counted h0 ⟨r, rfl, ?_, he⟩))
    have hi := taskInv h0 x
    obtain ⟨r', hr'⟩ : ∃ r', (s₀.pc x).req = some r' := by
      have := hi.entered.1 he
      generalize s₀.pc x = q at this
      have key : ∀ q : Pc, q.left = true → ∃ r', q.req = some r' := by
        intro q hq
        induction q with
        | dead q ih => exact ih hq
        | _ => first | exact ⟨_, rfl⟩ | cases hq
      cases q with
      | inside r k => exact ⟨r, rfl⟩
      | _ => exact key _ this
    have hb0 := (hi.began r').2 hr'
    have e1 := (taskInv h x).began r'
    have e2 := (taskInv h x).began r
    rw [e2] at hb'
    have := e1.1 (by rw [htr .requests]; exact List.mem_append_left _ (List.mem_append_left _ hb0))
    rw [hb'] at this
    cases this
    exact hb0
  · exact List.mem_append_right _ (hlate x ⟨r, hb', hp, hm⟩ he ⟨st, own_mem (by simp) ha⟩)

/-- C87, how far the requests can be ahead of the answers: for every path and method, there are not more requests than
responses and those requests that had begun by the end of the collection of `http_requests` and were not answered and over
when that of `http_responses` began. -/
theorem C87_open (h : Exec (Step m c) (.new cap) tr s)
    (htr : ∀ i, tr = A i ++ .on i (.vec (.startPass t)) :: B i ++ .on i (.vec (.endPass t (acc i))) :: C i)
    (hf : ∀ i, (exactClaim le t (A i) (B i) i).text rf (f i)) (p : Bytes) (a : Method) (still : List Tid)
    (hopen : ∀ x, RequestFor p a (A .requests ++ B .requests) x →
      (∀ st, .answer x st ∈ A .responses → .finish x ∉ A .responses) → x ∈ still) :
    shownTotal (f .requests) b!"http_requests" p (methodText a) ≤
      shownTotal (f .responses) b!"http_responses" p (methodText a) + still.length := by
  obtain ⟨ts, t1, t2, _, t4⟩ := total_counts (htr .requests ▸ h) (hf .requests) p (methodText a)
  obtain ⟨us, u1, u2, u3, _⟩ := total_counts (htr .responses ▸ h) (hf .responses) p (methodText a)
  have h1 := htr .requests ▸ h
  obtain ⟨s₁, h1, _⟩ := exec_split _ _ h1
  have h0 := htr .responses ▸ h
  rw [List.append_assoc] at h0
  obtain ⟨s₀, h0, _⟩ := exec_split (A .responses) _ h0
  refine t2 ▸ u2 ▸ Int.ofNat_le.2 (Nat.le_trans (length_le_of_subset (b := us ++ still) t1 fun x hx => ?_)
    (Nat.le_of_eq List.length_append))
  obtain ⟨g, hg, hx⟩ := t4 x hx
  obtain ⟨r, rfl, hb⟩ := counted_may h1 hx
  obtain ⟨hp, hm⟩ := (of_request r p a).1 hg
  by_cases he : ∃ st, .answer x st ∈ A .responses ∧ .finish x ∈ A .responses
  · obtain ⟨st, ha, hfin⟩ := he
    refine List.mem_append_left _ (u3 (r.response st) x ((of_response r st p a).2 ⟨hp, hm⟩) (sure_counted h0 ⟨r, st, rfl, ?_, ha, hfin⟩))
    have hi := taskInv h0 x
    obtain ⟨r', st', hd⟩ := hi.finished hfin
    have hb0 := (hi.began r').2 (by rw [hd]; rfl)
    have e1 := (taskInv h x).began r'
    have e2 := (taskInv h x).began r
    have b1 := e1.1 (by rw [htr .responses]; exact List.mem_append_left _ (List.mem_append_left _ hb0))
    have b2 := e2.1 (by rw [htr .requests]; exact List.mem_append_left _ hb)
    rw [b2] at b1
    cases b1
    exact hb0
  · exact List.mem_append_right _ (hopen x ⟨r, own_mem (by simp) hb, hp, hm⟩ fun st ha hfin => he ⟨st, ha, hfin⟩)

end

section
variable {m : Mode} {c : Vec → ShardConf Key} {cap : Nat} {tr : List Event} {s : Sys} {rf : Bytes → Option F64} {le : List F64}

/-- C87, from one export to the next: if a vector is collected after it was collected by an earlier request (or by the
same), then for every path and method the sum has not gone down. -/
theorem C87_later (h : Exec (Step m c) (.new cap) tr s) {i : Vec} {t t' : Tid} {A B R A' B' R' : List Event}
    (htr : tr = A ++ .on i (.vec (.startPass t)) :: B ++ R) (htr' : tr = A' ++ .on i (.vec (.startPass t')) :: B' ++ R')
    (hord : A ++ .on i (.vec (.startPass t)) :: B <+: A') {f f' : Family} (hf : (exactClaim le t A B i).text rf f)
    (hf' : (exactClaim le t' A' B' i).text rf f') (p meth : Bytes) :
    shownTotal f (countName i) p meth ≤ shownTotal f' (countName i) p meth := by
  obtain ⟨ts, t1, t2, _, t4⟩ := total_counts (htr ▸ h) hf p meth
  obtain ⟨us, u1, u2, u3, _⟩ := total_counts (htr' ▸ h) hf' p meth
  refine t2 ▸ u2 ▸ Int.ofNat_le.2 (length_le_of_subset t1 fun x hx => ?_)
  obtain ⟨g, hg, hx⟩ := t4 x hx
  exact u3 g x hg (counted_mono hord.subset hx)

end

/-! ## More answers than requests -/

section
variable {ryu : F64 → Bytes} {rf : Bytes → Option F64}

/-- C87, the answers can be ahead: request 0 exports the metrics; after it has collected `http_requests`, request 1 comes in
and is answered; then request 0 collects the other two. Its text shows an answer for a path and method for which it shows
no request. -/
theorem C87_more (F : FloatText ryu rf) (m m' : Mode) (c : Vec → ShardConf Key) (hc : ∀ i k, (c i).shardOf k < (c i).n) {cap : Nat}
    (hcap : 2 ≤ cap) {le : List F64} (hle : thresholds = .ok le) :
    ∃ (tr : List Event) (s : Sys) (A B C : Vec → List Event) (acc : (i : Vec) → List (Key × List i.Call)) (out : Bytes)
      (f : Vec → Family), Exec (Step m c) (.new cap) tr s ∧ FewRequests tr ∧
      (∀ i, tr = A i ++ .on i (.vec (.startPass 0)) :: B i ++ .on i (.vec (.endPass 0 (acc i))) :: C i) ∧
      (∀ i, .on i (.vec (.startPass 0)) ∉ B i) ∧
      A .requests ++ .on .requests (.vec (.startPass 0)) :: B .requests <+: A .responses ∧
      A .responses ++ .on .responses (.vec (.startPass 0)) :: B .responses <+: A .duration ∧
      handler m' ryu le (fun i => shownBy 0 (onVector i (onVecs (B i)))) (TextEnc.new []) = (.ok out, TextEnc.new []) ∧
      readFamilies rf out = some [f .requests, f .responses, f .duration] ∧
      (∀ i, (exactClaim le 0 (A i) (B i) i).text rf (f i)) ∧
      shownTotal (f .requests) b!"http_requests" b!"/a" b!"get" = 0 ∧
      shownTotal (f .responses) b!"http_responses" b!"/a" b!"get" = 1 := by
  let r₀ : Req := ⟨b!"/metrics", .get⟩
  let r₁ : Req := ⟨b!"/a", .get⟩
  obtain ⟨tr₁, k₀, s₁, e1, g1, -, -, l1⟩ := come_in (m := m) (c := c) (s := .new cap) (t := 0) ⟨fun _ _ => rfl, fun _ _ => rfl⟩ rfl r₀
    (.inr (show 0 < cap by omega))
  have h1 := e1
  obtain ⟨B₁, a₁, s₂, e2, q2, p2, -, w2, b1, o1⟩ := collect_stage h1 g1.quiet g1.now .requests
  have h2 := exec_append h1 e2
  have n2 : s₂.pc 1 = .new := by rw [p2, g1.pc]; rfl
  obtain ⟨tr₂, k₁, s₃, e3, g3, i3, j3, -⟩ := come_in (m := m) (c := c) q2 n2 r₁ (.inr (by
    rw [heap_cap h2, w2]
    have : (s₁.vecs.heap 0).items.length ≤ 1 := l1
    omega))
  have h3 := exec_append h2 e3
  obtain ⟨tr₃, s₄, e4, g4, -⟩ := go_out (m := m) (c := c) g3.quiet g3.now i3 j3 (st := 200) (by decide)
  have h4 := exec_append h3 e4
  have p4 : s₄.pc 0 = .inside r₀ k₀ := by rw [g4.pc, g3.pc, p2, g1.pc]; rfl
  obtain ⟨B₂, a₂, s₅, e5, q5, p5, -, -, b2, o2⟩ := collect_stage h4 g4.quiet p4 .responses
  have h5 := exec_append h4 e5
  obtain ⟨B₃, a₃, s₆, e6, q6, p6, -, -, b3, o3⟩ := collect_stage h5 q5 (by rw [p5]; exact p4) .duration
  have h6 := exec_append h5 e6
  let A : Vec → List Event := fun
    | .requests => tr₁
    | .responses => tr₁ ++ (.on .requests (.vec (.startPass 0)) :: B₁ ++ [.on .requests (.vec (.endPass 0 a₁))]) ++ tr₂ ++
        (tr₃ ++ [.finish 1])
    | .duration => tr₁ ++ (.on .requests (.vec (.startPass 0)) :: B₁ ++ [.on .requests (.vec (.endPass 0 a₁))]) ++ tr₂ ++
        (tr₃ ++ [.finish 1]) ++ (.on .responses (.vec (.startPass 0)) :: B₂ ++ [.on .responses (.vec (.endPass 0 a₂))])
  let B : Vec → List Event := fun | .requests => B₁ | .responses => B₂ | .duration => B₃
  let C : Vec → List Event := fun
    | .requests => tr₂ ++ (tr₃ ++ [.finish 1]) ++ (.on .responses (.vec (.startPass 0)) :: B₂ ++ [.on .responses (.vec (.endPass 0 a₂))]) ++
        (.on .duration (.vec (.startPass 0)) :: B₃ ++ [.on .duration (.vec (.endPass 0 a₃))])
    | .responses => .on .duration (.vec (.startPass 0)) :: B₃ ++ [.on .duration (.vec (.endPass 0 a₃))]
    | .duration => []
  let acc : (i : Vec) → List (Key × List i.Call) := fun | .requests => a₁ | .responses => a₂ | .duration => a₃
  generalize htr0 : tr₁ ++ (.on .requests (.vec (.startPass 0)) :: B₁ ++ [.on .requests (.vec (.endPass 0 a₁))]) ++ tr₂ ++
        (tr₃ ++ [.finish 1]) ++ (.on .responses (.vec (.startPass 0)) :: B₂ ++ [.on .responses (.vec (.endPass 0 a₂))]) ++
        (.on .duration (.vec (.startPass 0)) :: B₃ ++ [.on .duration (.vec (.endPass 0 a₃))]) = tr at h6
  have htr : ∀ i, tr = A i ++ .on i (.vec (.startPass 0)) :: B i ++ .on i (.vec (.endPass 0 (acc i))) :: C i := by
    intro i
    rw [← htr0]
    cases i <;> simp [A, B, C, acc]
  have hone : ∀ i, .on i (.vec (.startPass 0)) ∉ B i := by
    intro i
    cases i
    · exact b1 _ _
    · exact b2 _ _
    · exact b3 _ _
  -- where the requests are
  have hpc : ∀ x, s₆.pc x = if x = 0 then .inside r₀ k₀ else if x = 1 then .done r₁ (some 200) else .new := by
    intro x
    rw [p6, p5, g4.pc, g3.pc, Function.update_idem, p2, g1.pc]
    by_cases hx : x = 1
    · subst hx; rfl
    · rw [Function.update_of_ne hx, if_neg hx]
      by_cases hx : x = 0
      · subst hx; rfl
      · rw [Function.update_of_ne hx, if_neg hx]; rfl
  have hfew : FewRequests tr := by
    intro ts hn hts
    have : ts.length ≤ [0, 1].length := by
      refine length_le_of_subset hn fun x hx => ?_
      obtain ⟨r, hr⟩ := hts x hx
      have := ((taskInv h6 x).began r).1 hr
      rw [hpc] at this
      by_contra hc
      simp only [List.mem_cons, List.not_mem_nil, or_false, not_or] at hc
      rw [if_neg hc.1, if_neg hc.2] at this
      cases this
    exact Nat.lt_of_le_of_lt this (by decide)
  obtain ⟨out, f, f1, f2, f3⟩ := C87_exact F m' h6 hc hfew hle A B C acc htr hone
  refine ⟨tr, s₆, A, B, C, acc, out, f, h6, hfew, htr, hone, ⟨[.on .requests (.vec (.endPass 0 a₁))] ++ tr₂ ++ (tr₃ ++ [.finish 1]),
    by simp [A, B]⟩, ⟨[.on .responses (.vec (.endPass 0 a₂))], by simp [A, B]⟩, f1, f2, f3, ?_, ?_⟩
  · obtain ⟨ts, t1, t2, _, t4⟩ := total_counts (htr .requests ▸ h6) (f3 .requests) b!"/a" b!"get"
    refine t2.symm.trans ?_
    cases ts with
    | nil => rfl
    | cons x ts =>
      exfalso
      obtain ⟨g, hg, hx⟩ := t4 x List.mem_cons_self
      have hb := h6
      rw [htr .requests] at hb
      obtain ⟨s', hb, _⟩ := exec_split _ _ hb
      obtain ⟨r, rfl, hr⟩ := counted_may hb hx
      obtain ⟨hp, -⟩ := (of_request r _ .get).1 hg
      rcases List.mem_append.1 hr with hr | hr
      · have := ((taskInv h1 x).began r).1 hr
        rw [g1.pc] at this
        by_cases hx0 : x = 0
        · subst hx0
          rw [Function.update_self] at this
          cases this
          exact absurd hp (by decide)
        · rw [Function.update_of_ne hx0] at this
          cases this
      · rcases List.mem_cons.1 hr with hr | hr
        · cases hr
        · obtain ⟨_, hr⟩ := o1 _ hr
          cases hr
  · obtain ⟨ts, t1, t2, t3, t4⟩ := total_counts (htr .responses ▸ h6) (f3 .responses) b!"/a" b!"get"
    refine t2.symm.trans ?_
    have i1 : 1 ∈ ts := by
      refine t3 (r₁.response 200) 1 ((of_response r₁ 200 _ .get).2 ⟨rfl, rfl⟩) (sure_counted h4 ⟨r₁, 200, rfl, ?_, ?_, ?_⟩)
      · rw [(taskInv h4 1).began, g4.now]; rfl
      · rw [(taskInv h4 1).answered, g4.now]; rfl
      · simp
    have i2 : ∀ x ∈ ts, x = 1 := by
      intro x hx
      obtain ⟨g, hg, hx⟩ := t4 x hx
      have hb := h6
      rw [htr .responses] at hb
      obtain ⟨s', hb, _⟩ := exec_split _ _ hb
      obtain ⟨r, st, rfl, hr, ha⟩ := counted_may hb hx
      have ha : .answer x st ∈ A .responses ++ .on .responses (.vec (.startPass 0)) :: B .responses ++
        .on .responses (.vec (.endPass 0 (acc .responses))) :: C .responses := List.mem_append_left _ ha
      rw [← htr .responses, (taskInv h6 x).answered, hpc] at ha
      by_contra hx1
      rw [if_neg hx1] at ha
      split at ha <;> cases ha
    have : ts.length = 1 := by
      refine Nat.le_antisymm (length_le_of_subset (b := [1]) t1 fun x hx => List.mem_singleton.2 (i2 x hx)) (List.length_pos_of_mem i1)
    rw [this]
    rfl

/-! ## Examples -/

/-- In the run of `C87_more` the duration of the answer is there: `C87_answered` applies. -/
example (F : FloatText ryu rf) : ∃ (f : Vec → Family) (out : Bytes), readFamilies rf out = some [f .requests, f .responses, f .duration] ∧
    1 ≤ shownTotal (f .duration) b!"http_request_duration_count" b!"/a" b!"get" := by
  obtain ⟨le, hle, _⟩ := C80_thresholds
  obtain ⟨tr, s, A, B, C, acc, out, f, h, _, htr, _, _, hord, _, h2, hf, _, h4⟩ := C87_more F .debug .release exShards
    (fun _ k => Nat.mod_lt k.1 (y := 4) (by decide)) (Nat.le_refl 2) hle
  exact ⟨f, out, h2, h4 ▸ C87_answered h htr hord hf b!"/a" .get⟩

/-- Requests one after the other: nobody is late, and of `GET /a` nobody is still there. `C87_ahead` and `C87_open` apply. -/
example (F : FloatText ryu rf) : ∃ (f : Vec → Family) (out : Bytes), readFamilies rf out = some [f .requests, f .responses, f .duration] ∧
    shownTotal (f .responses) b!"http_responses" b!"/a" b!"get" = shownTotal (f .requests) b!"http_requests" b!"/a" b!"get" := by
  obtain ⟨le, hle, _⟩ := C80_thresholds
  obtain ⟨tr, s, A, B, C, acc, h, htr, hone, hb, hen, han, hfin, hmax, hB⟩ := C80_serves .debug exShards exRequests (by decide)
    ⟨b!"/metrics", .get⟩ (cap := 3) (ps := [b!"/a", b!"/b", b!"/metrics"]) (by decide) (by decide) (by decide)
  have hfew : FewRequests tr := by
    intro ts hn hts
    have : ts.length ≤ (List.range 4).length := length_le_of_subset hn fun x hx => by
      obtain ⟨r, hr⟩ := hts x hx
      exact List.mem_range.2 (Nat.lt_succ_of_le (hmax x r hr))
    exact Nat.lt_of_le_of_lt this (by decide)
  obtain ⟨out, f, -, h2, hf⟩ := C87_exact F .release h (fun _ k => Nat.mod_lt k.1 (y := 4) (by decide)) hfew hle A B C acc htr hone
  refine ⟨f, out, h2, Int.le_antisymm ?_ ?_⟩
  · refine Int.le_trans (C87_ahead h htr hf b!"/a" .get [] ?_) (Int.le_of_eq (Int.add_zero _))
    rintro x _ hne ⟨st, ha⟩
    rcases List.mem_append.1 ha with ha | ha
    · obtain ⟨q, hq, _⟩ := Option.map_eq_some_iff.1 ((han _ _ _).1 ha)
      exact absurd (hfin .requests x (List.getElem?_eq_some_iff.1 hq).1).1 hne
    · exact absurd ha ((hB .responses x).2.1 st)
  · refine Int.le_trans (C87_open h htr hf b!"/a" .get [] ?_) (Int.le_of_eq (Int.add_zero _))
    rintro x ⟨r, hr, hp, -⟩ hno
    rcases List.mem_append.1 hr with hr | hr
    · rcases (hb _ _ _).1 hr with h' | ⟨_, rfl⟩
      · obtain ⟨q, hq, _⟩ := Option.map_eq_some_iff.1 h'
        exact absurd (hfin .responses x (List.getElem?_eq_some_iff.1 hq).1).2
          (hno q.2 ((han _ _ _).2 (by rw [hq]; rfl)))
      · exact absurd hp (by decide)
    · exact absurd hr ((hB .requests x).1 r)

/-- One request collects `http_requests` twice: `C87_later` applies, whatever the texts. -/
example {le : List F64} : ∃ (tr : List Event) (s : Sys) (A B R A' B' R' : List Event),
    Exec (Step .debug exShards) (.new 1) tr s ∧ (∃ x, SureIn .requests (Req.group ⟨b!"/metrics", .get⟩) A x) ∧
    ∀ f f', (exactClaim le 0 A B .requests).text rf f → (exactClaim le 0 A' B' .requests).text rf f' →
      ∀ p meth, shownTotal f b!"http_requests" p meth ≤ shownTotal f' b!"http_requests" p meth := by
  obtain ⟨tr₁, k₀, s₁, h1, g1, -⟩ := come_in (m := .debug) (c := exShards) (s := .new 1) (t := 0) ⟨fun _ _ => rfl, fun _ _ => rfl⟩ rfl
    ⟨b!"/metrics", .get⟩ (.inr (show 0 < 1 by omega))
  obtain ⟨B₁, a₁, s₂, e2, q2, p2, -⟩ := collect_stage h1 g1.quiet g1.now .requests
  have h2 := exec_append h1 e2
  obtain ⟨B₂, a₂, s₃, e3, q3, p3, -⟩ := collect_stage h2 q2 (by rw [p2]; exact g1.now) .requests
  have h3 := exec_append h2 e3
  refine ⟨_, s₃, tr₁, B₁, .on .requests (.vec (.endPass 0 a₁)) :: (.on .requests (.vec (.startPass 0)) :: B₂ ++
    [.on .requests (.vec (.endPass 0 a₂))]), tr₁ ++ (.on .requests (.vec (.startPass 0)) :: B₁ ++
    [.on .requests (.vec (.endPass 0 a₁))]), B₂, [.on .requests (.vec (.endPass 0 a₂))], h3, ⟨0, _, rfl, ?_, ?_⟩, fun f f' hf hf' p meth => ?_⟩
  · rw [(taskInv h1 0).began, g1.now]; rfl
  · rw [(taskInv h1 0).entered, g1.now]; rfl
  · exact C87_later h3 (R := .on .requests (.vec (.endPass 0 a₁)) :: (.on .requests (.vec (.startPass 0)) :: B₂ ++
      [.on .requests (.vec (.endPass 0 a₂))])) (R' := [.on .requests (.vec (.endPass 0 a₂))]) (by simp) (by simp) ⟨[.on .requests (.vec (.endPass 0 a₁))], by simp⟩ hf hf' p meth

end

end Measured.Server
