import Verif.Proof.ExportRefine
import Verif.Props.ExportLive

/-!
# C90: the example server, with its histograms step by step
-/

namespace Measured.Server
open Measured.Conc Measured.Spec

theorem forall₂_split {X Y : Type} {R : X → Y → Prop} {a b : List X} {p : List Y} (h : List.Forall₂ R (a ++ b) p) :
    ∃ p₁ p₂, p = p₁ ++ p₂ ∧ List.Forall₂ R a p₁ ∧ List.Forall₂ R b p₂ := by
  induction a generalizing p with
  | nil => exact ⟨[], p, rfl, .nil, h⟩
  | cons x a ih =>
    cases h with
    | cons h1 h2 =>
      obtain ⟨p₁, p₂, rfl, i1, i2⟩ := ih h2
      exact ⟨_ :: p₁, p₂, rfl, .cons h1 i1, i2⟩

theorem outer_append (a b : List DEvent) : outer (a ++ b) = outer a ++ outer b := by
  induction a with
  | nil => rfl
  | cons e a ih =>
    cases e with
    | hist => exact ih
    | top e =>
      cases e with
      | base e => cases e <;> simp [outer, ih]
      | _ => exact ih

/-- The middleware does the same in both runs. -/
theorem mem_outer {tr : List DEvent} {parts : List (List EEvent)} (h : List.Forall₂ DShows tr parts) {e : Event}
    (he : ∀ i f, e ≠ .on i f) : e ∈ outer tr ↔ e ∈ baseEvents parts.flatten := by
  induction h with
  | nil => simp [outer, baseEvents]
  | @cons d part tr parts h1 _ ih =>
    rw [List.flatten_cons, baseEvents_append, List.mem_append, ← ih]
    cases h1 with
    | top d =>
      cases d with
      | base d => cases d <;> simp [outer, baseEvents, he]
      | _ => simp [outer, baseEvents]
    | _ => simp [outer, baseEvents, he]

theorem outer_own {tr : List DEvent} {e : Event} (h : e ∈ outer tr) (i : Vec) (f : LVEvent Lab i.Call i.groups.n) : e ≠ .on i f := by
  induction tr with
  | nil => cases h
  | cons d tr ih =>
    cases d with
    | hist => exact ih h
    | top d =>
      cases d with
      | base d =>
        cases d <;> simp only [outer, List.mem_cons] at h
        case on => exact ih h
        all_goals rcases h with rfl | h
        all_goals first | exact ih h | simp
      | _ => exact ih h

theorem outer_few {tr : List DEvent} {parts : List (List EEvent)} (h : List.Forall₂ DShows tr parts) (hlen : FewRequests (outer tr)) :
    FewRequests (baseEvents parts.flatten) := fun ts hn hts => hlen ts hn fun x hx => by
  obtain ⟨r, hr⟩ := hts x hx
  exact ⟨r, (mem_outer h (by simp)).2 hr⟩

section
variable {m : Mode} {c : Vec → ShardConf Key} {ryu : F64 → Bytes} {rf : Bytes → Option F64} {le : List F64} {cap : Nat} {s : DSys}
  {t : Tid} {out : Bytes} {tr T R : List DEvent}

/-- C90. With all histograms step by step, the server does what it does with histograms that record a duration and are sampled
in one step: each duration is recorded when it is added to the sum of its histogram, and each sample is of all the durations
that were recorded for its key by some time while the shard was locked for the collection. -/
theorem C90_refine (h : Exec (DStep m c ryu le) (.new cap le.length) tr s) :
    ∃ parts a, List.Forall₂ DShows tr parts ∧ Exec (EStep m c ryu le) (.new cap) parts.flatten a := by
  obtain ⟨parts, a, h1, h2⟩ := d_inv h
  exact ⟨parts, a, h1, h2.exec⟩

theorem shows_call {part : List EEvent} (h : DShows (.top (.call t)) part) : part = [.call t] := by cases h; rfl
theorem shows_text {part : List EEvent} (h : DShows (.top (.text t out)) part) : part = [.text t out] := by cases h; rfl
theorem shows_locked {part : List EEvent} (h : DShows (.top (.locked t)) part) : part = [.locked t] := by cases h; rfl
theorem shows_crash {part : List EEvent} (h : DShows (.top (.crash t)) part) : part = [.crash t] := by cases h; rfl

/-- The run at an event. -/
theorem refine_at {A B : List DEvent} {e : DEvent} (h : Exec (DStep m c ryu le) (.new cap le.length) (A ++ e :: B) s) :
    ∃ p part q a, List.Forall₂ DShows A p ∧ DShows e part ∧ List.Forall₂ DShows B q ∧
      Exec (EStep m c ryu le) (.new cap) (p.flatten ++ part ++ q.flatten) a := by
  obtain ⟨parts, a, h1, h2⟩ := C90_refine h
  obtain ⟨p, q, rfl, hp, hq⟩ := forall₂_split h1
  cases hq with
  | cons h3 h4 => exact ⟨p, _, _, a, hp, h3, h4, by simpa using h2⟩

theorem shows_mem {tr : List DEvent} {parts : List (List EEvent)} (h : List.Forall₂ DShows tr parts) {e : EEvent} (he : ∀ f, e ≠ .base f) :
    .top e ∈ tr ↔ e ∈ parts.flatten := by
  induction h with
  | nil => simp
  | @cons d part tr parts h1 _ ih =>
    rw [List.flatten_cons, List.mem_append, ← ih, List.mem_cons]
    cases h1 <;> simp [he]

/-- C90, the mutex: from when a request gets it until it returns its text, nobody gets it. -/
theorem C90_alone {A B : List DEvent} (h : Exec (DStep m c ryu le) (.new cap le.length) (A ++ .top (.locked t) :: B) s)
    (hB : ∀ out, .top (.text t out) ∉ B) (u : Tid) : .top (.locked u) ∉ B := by
  obtain ⟨p, part, q, a, h1, h2, h3, h4⟩ := refine_at h
  obtain rfl := shows_locked h2
  rw [List.append_assoc] at h4
  rw [shows_mem h3 (by simp)]
  exact C88_alone h4 (fun out hm => hB out ((shows_mem h3 (by simp)).2 hm)) u

/-- C90, what the client sees: between the call of the handler and the text there is, for each family, a time for which it
is right. So all requests that were over before the call are counted, and none but those that had begun before the text. -/
theorem C90_response {T₀ T₁ : List DEvent} (F : FloatText ryu rf)
    (h : Exec (DStep m c ryu le) (.new cap le.length) (T₀ ++ .top (.call t) :: T₁ ++ .top (.text t out) :: R) s)
    (hc : ∀ i k, (c i).shardOf k < (c i).n) (hlen : FewRequests (outer (T₀ ++ T₁))) (hle : thresholds = .ok le) :
    ∃ f : Vec → Family, readFamilies rf out = some [f .requests, f .responses, f .duration] ∧
      ∀ i, (serverClaim le (outer T₀) (outer T₁) i).text rf (f i) := by
  obtain ⟨p, part, q, a, h1, h2, h3, h4⟩ := refine_at h
  obtain rfl := shows_text h2
  obtain ⟨p₀, p₁, rfl, i1, i2⟩ := forall₂_split h1
  cases i2 with
  | cons i3 i4 =>
    rename_i p₁
    obtain rfl := shows_call i3
    have hfew : FewRequests (baseEvents (p₀.flatten ++ p₁.flatten)) := by
      have := outer_few (List.rel_append i1 i4) hlen
      rwa [List.flatten_append] at this
    obtain ⟨f, hf, hg⟩ := C88_response (T₀ := p₀.flatten) (T₁ := p₁.flatten) (R := q.flatten) F (by simpa using h4) hc hfew hle
    refine ⟨f, hf, fun i => serverClaim_mono (hg i) ?_ ?_⟩
    · exact fun e he => (mem_outer i1 (outer_own he)).1 he
    · intro e he hn
      rw [← outer_append, mem_outer (List.rel_append i1 i4) hn, List.flatten_append, baseEvents_append]
      exact he

/-- C90, a text never shows more answers than durations. -/
theorem C90_answered (F : FloatText ryu rf) (h : Exec (DStep m c ryu le) (.new cap le.length) (T ++ .top (.text t out) :: R) s)
    (hc : ∀ i k, (c i).shardOf k < (c i).n) (hlen : FewRequests (outer T)) (hle : thresholds = .ok le) :
    ∃ f : Vec → Family, readFamilies rf out = some [f .requests, f .responses, f .duration] ∧ ∀ (p : Bytes) (a : Method),
      shownTotal (f .responses) b!"http_responses" p (methodText a) ≤
        shownTotal (f .duration) b!"http_request_duration_count" p (methodText a) := by
  obtain ⟨p, part, q, a, h1, h2, h3, h4⟩ := refine_at h
  obtain rfl := shows_text h2
  rw [List.append_assoc] at h4
  exact C88_answered F h4 hc (outer_few h1 hlen) hle

/-- C90, from one text to the next: what a later text shows for a path and a method has not gone down. -/
theorem C90_later {U : List DEvent} {u : Tid} {out' : Bytes} (F : FloatText ryu rf)
    (h : Exec (DStep m c ryu le) (.new cap le.length) (T ++ .top (.text t out) :: U ++ .top (.text u out') :: R) s)
    (hc : ∀ i k, (c i).shardOf k < (c i).n) (hlen : FewRequests (outer (T ++ U))) (hle : thresholds = .ok le) :
    ∃ f f' : Vec → Family, readFamilies rf out = some [f .requests, f .responses, f .duration] ∧
      readFamilies rf out' = some [f' .requests, f' .responses, f' .duration] ∧ ∀ i (p meth : Bytes),
      shownTotal (f i) (countName i) p meth ≤ shownTotal (f' i) (countName i) p meth := by
  obtain ⟨p, part, q, a, h1, h2, h3, h4⟩ := refine_at h
  obtain rfl := shows_text h2
  obtain ⟨p₀, p₁, rfl, i1, i2⟩ := forall₂_split h1
  cases i2 with
  | cons i3 i4 =>
    rename_i p₁
    obtain rfl := shows_text i3
    have hfew : FewRequests (baseEvents (p₀.flatten ++ p₁.flatten)) := by
      have := outer_few (List.rel_append i1 i4) hlen
      rwa [List.flatten_append] at this
    exact C88_later (T := p₀.flatten) (U := p₁.flatten) (R := q.flatten) F (by simpa using h4) hc hfew hle

/-- C90, nothing panics: not the handler, and not `observe`. -/
theorem C90_no_crash (h : Exec (DStep m c ryu le) (.new cap le.length) tr s) (hlen : FewRequests (outer tr)) (hle : thresholds = .ok le)
    (t : Tid) : .top (.crash t) ∉ tr := by
  obtain ⟨parts, a, h1, h2⟩ := C90_refine h
  rw [shows_mem h1 (by simp)]
  exact C88_no_crash h2 (outer_few h1 hlen) hle t

theorem C90_no_panic (h : Exec (DStep m c ryu le) (.new cap le.length) tr s) (t : Tid) (k : Key) (u : Tid) :
    .hist t k (.panic u) ∉ tr := by
  intro hm
  obtain ⟨A, B, rfl⟩ := List.append_of_mem hm
  obtain ⟨x, h1, h2⟩ := exec_split _ _ h
  obtain ⟨y, hs, _⟩ := exec_cons_inv h2
  obtain ⟨parts, a, _, I⟩ := d_inv h1
  obtain ⟨htr, H⟩ := I.base.hv
  have key : ∀ {us h'}, mapOf (mapEvents .duration (baseEvents parts.flatten)) k = some us → HistStep le (x.hist k) (.panic u) h' → False := by
    intro us h' hk hs
    obtain ⟨l, l1, _, _⟩ := H.hist k us hk
    exact C22_no_panic (l1.snoc hs) u (by simp)
  have hi := s_inv H.exec
  cases hs with
  | observe hp ho hi' hg hq hs ht h0 h1 hd hn =>
    have hg' : k ∈ (((a.base.vecs.own .duration).vec).thr t).guards := by
      have := H.vec
      have : (a.base.vecs.own .duration).vec.erase = (x.top.base.vecs.own .duration).vec.erase := this
      have := congrArg (fun v : SSys Key Empty => (v.thr t).guards) this
      exact (show (((a.base.vecs.own .duration).vec).thr t).guards = _ from this) ▸ hg
    obtain ⟨us, hus⟩ := Option.ne_none_iff_exists'.1 ((hi.ok t).guards k hg')
    exact key (by rw [← hi.abs]; exact hus) hs
  | sampling hp hc hk hg hs ht h1 =>
    have hu : t = u := ht.symm
    subst hu
    cases hs with
    | startPanic _ _ => simp [HistSys.goto, HistPc.ofSampler] at h1
    | bumpPanic => simp [HistSys.goto, HistPc.ofSampler] at h1

end

end Measured.Server
