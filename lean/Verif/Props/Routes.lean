import Verif.Spec.Routes
import Verif.Props.Server

/-!
# C83: the routes of the example server, and how many series they make
-/

namespace Measured.Server
open Measured.Conc Measured.Spec

/-! ## Which route -/

/-- No path is an instance of both, unless this is true. -/
def mayMeet : List Bytes → List Bytes → Bool
  | [], [] => true
  | s :: ss, t :: ts => (s.head? == some 0x3a || t.head? == some 0x3a || s == t) && mayMeet ss ts
  | _, _ => false

theorem mayMeet_of {v v' : Bytes} : ∀ {ps ps' xs : List Bytes},
    List.Forall₂ (fun s t => IsParam s ∧ t = v ∨ ¬ IsParam s ∧ t = s) ps xs →
    List.Forall₂ (fun s t => IsParam s ∧ t = v' ∨ ¬ IsParam s ∧ t = s) ps' xs → mayMeet ps ps' = true
  | _, _, _, .nil, .nil => rfl
  | _, _, _, .cons h hs, .cons h' hs' => by
    rw [mayMeet, mayMeet_of hs hs', Bool.and_true]
    rcases h with ⟨h, -⟩ | ⟨-, rfl⟩
    · simp [show _ = _ from h]
    · rcases h' with ⟨h', -⟩ | ⟨-, rfl⟩
      · simp [show _ = _ from h']
      · simp

theorem routes_apart : ∀ p ∈ routePaths, ∀ p' ∈ routePaths, mayMeet (segments p) (segments p') = true → p = p' := by
  decide +kernel

/-- C83, routes: the server has the seven routes, none twice. -/
theorem C83_routes : app.map Prod.fst = routePaths ∧ routePaths.Nodup := by decide +kernel

/-- C83, one route: a path is an instance of at most one of the routes. -/
theorem C83_one_route {p p' v v' x : Bytes} (hp : p ∈ routePaths) (hp' : p' ∈ routePaths) (h : Fills p v x)
    (h' : Fills p' v' x) : p = p' :=
  routes_apart p hp p' hp' (mayMeet_of h h')

section
variable {a : Axum}

/-- C83, the label `path`: a request for an instance of a route has the path of the route as its label, whatever stands for
the parameter; a request for anything else has the label `unknown`. -/
theorem C83_label (L : Finds a) (q : HttpReq) :
    (∀ p v, p ∈ routePaths → Fills p v q.path → v ≠ [] → (q.req a).path = p) ∧
    ((∀ p v, p ∈ routePaths → ¬ Fills p v q.path) → (q.req a).path = b!"unknown") := by
  constructor
  · intro p v hp hf hv
    have := L.complete _ _ _ hp hf hv
    cases e : a.find q.path with
    | none => exact absurd e this
    | some y =>
      obtain ⟨p', v'⟩ := y
      obtain ⟨hp', hf'⟩ := L.sound _ _ _ e
      rw [HttpReq.req, e]
      exact C83_one_route hp' hp hf' hf
  · intro h
    cases e : a.find q.path with
    | none => rw [HttpReq.req, e]
    | some y => exact absurd (L.sound _ _ _ e).2 (h _ _ (L.sound _ _ _ e).1)

/-- C83, no other values: whatever is requested, the label `path` is one of eight. -/
theorem C83_paths (L : Finds a) (q : HttpReq) : (q.req a).path ∈ pathLabels := by
  rw [HttpReq.req]
  cases e : a.find q.path with
  | none => exact List.mem_cons_self
  | some y => exact List.mem_cons_of_mem _ (L.sound _ _ _ e).1

theorem method_cases (n : Bytes) :
    (n = b!"GET" ∧ Method.ofHttp n = .get) ∨ (n = b!"POST" ∧ Method.ofHttp n = .post) ∨
    (n ≠ b!"GET" ∧ n ≠ b!"POST" ∧ Method.ofHttp n = .other) := by
  unfold Method.ofHttp
  by_cases h : n = b!"GET"
  · simp [h]
  · by_cases h' : n = b!"POST"
    · subst h'; right; left; exact ⟨rfl, by decide⟩
    · right; right; simp [h, h']

/-- The statuses of a handler. -/
def Handler.all : Handler → List Nat
  | .always st => [st]
  | .ifParam _ yes no => [yes, no, 400]

theorem Handler.status_mem (v : Bytes) (h : Handler) : h.status a v ∈ h.all := by
  cases h with
  | always => simp [Handler.status, Handler.all]
  | ifParam w y n => simp only [Handler.status, Handler.all]; repeat' split
                     all_goals simp

theorem get_listed : ∀ r ∈ app, ∀ st ∈ r.2.get.all,
    (r.1, Method.get, st) ∈ responseLabels ∧ (r.1, Method.other, st) ∈ responseLabels := by
  decide +kernel

theorem other_listed : ∀ r ∈ app, (r.1, Method.other, 405) ∈ responseLabels := by
  decide +kernel

theorem post_listed : ∀ r ∈ app, ∀ h ∈ r.2.post.toList, ∀ st ∈ h.all, (r.1, Method.post, st) ∈ responseLabels := by
  decide +kernel

theorem refused_listed : ∀ r ∈ app, r.2.post.isNone = true → (r.1, Method.post, 405) ∈ responseLabels := by
  decide +kernel

theorem lookup_app : ∀ p ∈ routePaths, ∃ h, app.lookup p = some h ∧ (p, h) ∈ app := by
  have key : ∀ (l : Router) p, p ∈ l.map Prod.fst → ∃ h, l.lookup p = some h ∧ (p, h) ∈ l := by
    intro l p hp
    induction l with
    | nil => cases hp
    | cons y l ih =>
      obtain ⟨k, h⟩ := y
      by_cases e : p = k
      · subst e; exact ⟨h, by simp [List.lookup], List.mem_cons_self⟩
      · obtain ⟨h', h1, h2⟩ := ih (by rcases List.mem_cons.1 hp with h | h; exacts [absurd h e, h])
        refine ⟨h', ?_, List.mem_cons_of_mem _ h2⟩
        simp only [List.lookup, beq_false_of_ne e, h1]
  intro p hp
  rw [← C83_routes.1] at hp
  exact key app p hp

/-- C83, the answers: for each path and method there are only the statuses in the table. -/
theorem C83_answers (L : Finds a) (q : HttpReq) : ((q.req a).path, (q.req a).method, q.status a) ∈ responseLabels := by
  rw [HttpReq.req, HttpReq.status]
  cases e : a.find q.path with
  | none =>
    rcases method_cases q.method with ⟨_, h⟩ | ⟨_, h⟩ | ⟨_, _, h⟩ <;> simp only [h] <;> decide +kernel
  | some y =>
    obtain ⟨p, v⟩ := y
    obtain ⟨h, h1, h2⟩ := lookup_app p (L.sound _ _ _ e).1
    have hg := get_listed _ h2
    have ho := other_listed _ h2
    have hp := post_listed _ h2
    have hp' := refused_listed _ h2
    simp only [h1, MethodRouter.status]
    rcases method_cases q.method with ⟨hm, hl⟩ | ⟨hm, hl⟩ | ⟨hm, hm', hl⟩
    · rw [hl, if_pos (.inl hm)]
      exact (hg _ (Handler.status_mem _ _)).1
    · rw [hl, if_neg (by rw [hm]; decide)]
      cases e' : h.post with
      | none => exact hp' (by rw [e']; rfl)
      | some h' =>
        simp only [hm, if_true]
        exact hp h' (by rw [e']; exact List.mem_singleton.2 rfl) _ (Handler.status_mem _ _)
    · rw [hl]
      by_cases hh : q.method = b!"HEAD"
      · rw [if_pos (.inr hh)]
        exact (hg _ (Handler.status_mem _ _)).2
      · rw [if_neg (by simp [hm, hh])]
        cases e' : h.post with
        | none => exact ho
        | some h' => simpa only [hm', if_false] using ho

/-- A handler does what the table says. -/
def Handler.Says (g : Option (Bytes × Nat)) (h : Handler) : Prop :=
  match g with
  | none => h = .always 200
  | some (w, n) => h = .ifParam w 200 n

theorem table_says : List.Forall₂ (fun (t : Bytes × Option (Bytes × Nat) × Option Nat) (r : Bytes × MethodRouter) =>
    t.1 = r.1 ∧ r.2.get.Says t.2.1 ∧ r.2.post = t.2.2.map .always) routeTable app := by
  unfold routeTable app
  repeat' constructor

theorem lookup_mem {k : Bytes} {h : MethodRouter} : ∀ {l : Router}, l.lookup k = some h → (k, h) ∈ l
  | [], h1 => by cases h1
  | (k', h'') :: l, h1 => by
    by_cases e : k = k'
    · subst e
      simp only [List.lookup, beq_self_eq_true] at h1
      cases h1; exact List.mem_cons_self
    · simp only [List.lookup, beq_false_of_ne e] at h1
      exact List.mem_cons_of_mem _ (lookup_mem h1)

theorem table_lookup {tab : List (Bytes × Option (Bytes × Nat) × Option Nat)} {l : Router}
    (h : List.Forall₂ (fun t r => t.1 = r.1 ∧ r.2.get.Says t.2.1 ∧ r.2.post = t.2.2.map .always) tab l)
    (hn : (l.map Prod.fst).Nodup) {t : Bytes × Option (Bytes × Nat) × Option Nat} (ht : t ∈ tab) :
    ∃ h, l.lookup t.1 = some h ∧ h.get.Says t.2.1 ∧ h.post = t.2.2.map .always := by
  induction h with
  | nil => cases ht
  | @cons t' r _ l h _ ih =>
    obtain ⟨k, mr⟩ := r
    rcases List.mem_cons.1 ht with rfl | ht
    · obtain ⟨h1, h2⟩ := h
      refine ⟨mr, ?_, h2⟩
      rw [h1]; simp [List.lookup]
    · rw [List.map_cons, List.nodup_cons] at hn
      obtain ⟨h', h1, h2⟩ := ih hn.2 ht
      refine ⟨h', ?_, h2⟩
      have hne : t.1 ≠ k := by
        intro e
        exact hn.1 (List.mem_map.2 ⟨(t.1, h'), lookup_mem h1, e⟩)
      simp only [List.lookup, beq_false_of_ne hne, h1]

theorem fills_unique {v v' : Bytes} : ∀ {ps xs : List Bytes},
    List.Forall₂ (fun s t => IsParam s ∧ t = v ∨ ¬ IsParam s ∧ t = s) ps xs →
    List.Forall₂ (fun s t => IsParam s ∧ t = v' ∨ ¬ IsParam s ∧ t = s) ps xs → (∃ s ∈ ps, IsParam s) → v = v'
  | _, _, .nil, .nil, h => by obtain ⟨_, h, _⟩ := h; cases h
  | _, _, .cons h hs, .cons h' hs', ⟨s, hm, hp⟩ => by
    rcases List.mem_cons.1 hm with rfl | hm
    · rcases h with ⟨_, rfl⟩ | ⟨h, _⟩
      · rcases h' with ⟨_, rfl⟩ | ⟨h, _⟩
        · rfl
        · exact absurd hp h
      · exact absurd hp h
    · exact fills_unique hs hs' ⟨s, hm, hp⟩

theorem table_params : ∀ t ∈ routeTable, t.2.1 ≠ none → ∃ s ∈ segments t.1, IsParam s := by decide +kernel

/-- C83, what is answered: a request for an instance of a route gets the status that the table says, as the parameter is;
a request for anything else gets 404. -/
theorem C83_status (L : Finds a) (q : HttpReq) :
    (∀ t v, t ∈ routeTable → Fills t.1 v q.path → v ≠ [] → Answers q.method (a.decode v) t.2.1 t.2.2 (q.status a)) ∧
    ((∀ p v, p ∈ routePaths → ¬ Fills p v q.path) → q.status a = 404) := by
  constructor
  · intro t v ht hf hv
    have hp : t.1 ∈ routePaths := (show routeTable.map Prod.fst = routePaths from rfl) ▸ List.mem_map.2 ⟨t, ht, rfl⟩
    cases e : a.find q.path with
    | none => exact absurd e (L.complete _ _ _ hp hf hv)
    | some y =>
      obtain ⟨p', v'⟩ := y
      obtain ⟨hp', hf'⟩ := L.sound _ _ _ e
      have he := C83_one_route hp' hp hf' hf
      subst he
      obtain ⟨h, h1, h2, h3⟩ := table_lookup table_says (C83_routes.1 ▸ C83_routes.2) ht
      have huniq := fun hp => fills_unique hf' hf (table_params t ht hp)
      obtain ⟨p, g, post⟩ := t
      simp only [HttpReq.status, e, h1, MethodRouter.status]
      simp only at h2 h3 huniq
      split
      · rename_i hm
        cases g with
        | none => rw [show h.get = .always 200 from h2]; exact .always hm
        | some g =>
          obtain ⟨w, no⟩ := g
          rw [show h.get = .ifParam w 200 no from h2, huniq (by simp)]
          simp only [Handler.status]
          split
          · rename_i w' hw
            split
            · rename_i hww; subst hww; exact .yes hm hw
            · rename_i hww; exact .no hm hw hww
          · rename_i hw; exact .bad hm hw
      · rename_i hm
        simp only [not_or] at hm
        rw [h3]
        cases post with
        | none =>
          simp only [Option.map_none]
          by_cases hpo : q.method = b!"POST"
          · exact .noPost hpo
          · exact .other ⟨hm.1, hm.2, hpo⟩
        | some st =>
          simp only [Option.map_some, Handler.status]
          split
          · rename_i hpo; exact .post hpo
          · rename_i hpo; exact .other ⟨hm.1, hm.2, hpo⟩
  · intro h
    cases e : a.find q.path with
    | none => rw [HttpReq.status, e]
    | some y => exact absurd (L.sound _ _ _ e).2 (h _ _ (L.sound _ _ _ e).1)

theorem statuses_ok : ∀ t ∈ responseLabels, 100 ≤ t.2.2 ∧ t.2.2 < 1000 := by decide +kernel

end

/-! ## How many series -/

section
variable {a : Axum} {m : Mode} {c : Vec → ShardConf Key} {cap : Nat} {tr : List Event} {s : Sys} {q : Tid → HttpReq}
  {ryu : F64 → Bytes} {rf : Bytes → Option F64}

/-- C83, the interner: one that takes eight paths is enough for ever; no request panics. -/
theorem C83_never_refused (L : Finds a) (h : Exec (Step m c) (.new cap) tr s) (hq : FromHttp a q tr) (hcap : 8 ≤ cap)
    (i : Vec) (x : Tid) (g : i.groups.Group) : .on i (.lab (.encoded x g none)) ∉ tr := by
  intro hm
  obtain ⟨ps, r, hn, hl, hp, hb, hr⟩ := C80_refused h hm
  have : (r.path :: ps).length ≤ pathLabels.length := by
    refine ((List.nodup_cons.2 ⟨hr, hn⟩).subperm fun p hpm => ?_).length_le
    rcases List.mem_cons.1 hpm with rfl | hpm
    · rw [hq.1 x r hb]
      exact C83_paths L (q x)
    · obtain ⟨y, r, hb, rfl⟩ := hp p hpm
      rw [hq.1 y r hb]
      exact C83_paths L (q y)
  have : pathLabels.length = 8 := rfl
  rw [List.length_cons] at *
  omega

/-- The label groups that there may be. -/
def allGroups : (i : Vec) → List i.groups.Group
  | .requests => requestLabels.map fun p => Req.group ⟨p.1, p.2⟩
  | .responses => responseLabels.map fun p => Req.response ⟨p.1, p.2.1⟩ p.2.2
  | .duration => requestLabels.map fun p => Req.group ⟨p.1, p.2⟩

theorem groups_length : ∀ i : Vec, (allGroups i).length = match i with | .responses => 45 | _ => 24
  | .requests => by rw [allGroups, List.length_map]; decide +kernel
  | .responses => by rw [allGroups, List.length_map]; decide +kernel
  | .duration => by rw [allGroups, List.length_map]; decide +kernel

theorem request_listed (L : Finds a) (q : HttpReq) : ((q.req a).path, (q.req a).method) ∈ requestLabels := by
  refine List.mem_flatMap.2 ⟨_, C83_paths L q, ?_⟩
  cases (q.req a).method <;> simp

theorem may_listed (L : Finds a) (hq : FromHttp a q tr) {i : Vec} {g : i.groups.Group} {x : Tid} (h : MayIn i g tr x) :
    g ∈ allGroups i := by
  cases i with
  | requests =>
    obtain ⟨r, rfl, hb⟩ := h
    rw [hq.1 x r hb]
    exact List.mem_map.2 ⟨_, request_listed L (q x), rfl⟩
  | responses =>
    obtain ⟨r, st, rfl, hb, ha⟩ := h
    rw [hq.1 x r hb, hq.2 x st ha]
    exact List.mem_map.2 ⟨_, C83_answers L (q x), rfl⟩
  | duration =>
    obtain ⟨r, rfl, hb, -⟩ := h
    rw [hq.1 x r hb]
    exact List.mem_map.2 ⟨_, request_listed L (q x), rfl⟩

theorem group_path {i : Vec} {g : i.groups.Group} (h : g ∈ allGroups i) :
    ∃ p ∈ pathLabels, (b!"path", LVal.str p) ∈ seriesLabels i g := by
  cases i with
  | responses =>
    obtain ⟨t, ht, rfl⟩ := List.mem_map.1 h
    refine ⟨t.1, ?_, List.mem_cons_self⟩
    revert t
    decide +kernel
  | _ =>
    obtain ⟨t, ht, rfl⟩ := List.mem_map.1 h
    refine ⟨t.1, ?_, List.mem_cons_self⟩
    obtain ⟨p, hp, ht⟩ := List.mem_flatMap.1 ht
    simp only [List.mem_cons, List.not_mem_nil, or_false] at ht
    rcases ht with rfl | rfl | rfl <;> exact hp

/-- What bounds the entries of a claim, bounds the samples of its family. -/
theorem family_bounded {cl : Claim} {gs : List cl.K} {n : Nat} {g : Family} (h : cl.text rf g)
    (hw : ∀ k v, cl.was k v → k ∈ gs) (hsize : ∀ k v, cl.was k v → (cl.k.shown cl.name.text (cl.labels k) v).length = n)
    (hp : ∀ k ∈ gs, ∃ p ∈ pathLabels, (b!"path", LVal.str p) ∈ cl.labels k)
    (hlab : ∀ k v e, e ∈ cl.k.shown cl.name.text (cl.labels k) v → ∀ l ∈ cl.labels k, l ∈ e.labels) :
    g.samples.length ≤ gs.length * n ∧ ∀ s ∈ g.samples, ∃ p ∈ pathLabels, (b!"path", p) ∈ s.labels := by
  obtain ⟨l, ss, ⟨hn, hwas, -⟩, rfl, hr⟩ := h
  constructor
  · show ss.length ≤ _
    rw [← hr.length_eq, List.length_flatMap]
    have e : (l.map fun q => (cl.k.shown cl.name.text (cl.labels q.1) q.2).length) = l.map fun _ => n :=
      List.map_congr_left fun q hq => hsize _ _ (hwas q hq)
    rw [e, List.map_const', List.sum_replicate_nat]
    refine Nat.mul_le_mul_right _ ?_
    have := (hn.subperm (l₂ := gs) fun k hk => by
      obtain ⟨q, hq, rfl⟩ := List.mem_map.1 hk
      exact hw _ _ (hwas q hq)).length_le
    rwa [List.length_map] at this
  · intro s hs
    obtain ⟨e, he, hes⟩ : ∃ e ∈ l.flatMap fun q => cl.k.shown cl.name.text (cl.labels q.1) q.2, SampleReads rf e s := by
      clear hn hwas
      revert hr
      generalize (l.flatMap fun q => cl.k.shown cl.name.text (cl.labels q.1) q.2) = X
      intro hr
      induction hr with
      | nil => cases hs
      | cons h _ ih =>
        rcases List.mem_cons.1 hs with rfl | hs
        · exact ⟨_, List.mem_cons_self, h⟩
        · obtain ⟨e, he, hes⟩ := ih hs
          exact ⟨e, List.mem_cons_of_mem _ he, hes⟩
    obtain ⟨y, hy, he⟩ := List.mem_flatMap.1 he
    obtain ⟨p, hpm, hpl⟩ := hp _ (hw _ _ (hwas y hy))
    refine ⟨p, hpm, ?_⟩
    have hin := hlab _ _ _ he _ hpl
    have hf := hes.2.1
    unfold LabelsRead at hf
    generalize e.labels = A at hf hin
    generalize s.labels = B at hf
    induction hf with
    | nil => cases hin
    | @cons x t _ _ h _ ih =>
      rcases List.mem_cons.1 hin with rfl | hin
      · obtain ⟨t1, t2⟩ := t
        obtain ⟨h1, h2⟩ := h
        have h2 : p = t2 := by simpa [LabelReads, eq_comm] using h2
        have h1 : b!"path" = t1 := h1
        rw [h1, h2]; exact List.mem_cons_self
      · exact List.mem_cons_of_mem _ (ih hin)

/-- C83, bounded: whatever is requested, and however often, a text of the metrics has at most 24 samples in `http_requests`,
45 in `http_responses` and 456 in `http_request_duration` (19 for each of 24 label groups); each has one of the eight values
for `path`. -/
theorem C83_bounded (L : Finds a) (F : FloatText ryu rf) (m' : Mode) (h : Exec (Step m c) (.new cap) tr s)
    (hq : FromHttp a q tr) (hc : ∀ i k, (c i).shardOf k < (c i).n) (hlen : FewRequests tr) {le : List F64}
    (hle : thresholds = .ok le) (A B C : Vec → List Event) (acc : (i : Vec) → List (Key × List i.Call))
    (htr : ∀ i, tr = A i ++ .on i (.vec (.startPass t)) :: B i ++ .on i (.vec (.endPass t (acc i))) :: C i)
    (hone : ∀ i, .on i (.vec (.startPass t)) ∉ B i) :
    ∃ (out : Bytes) (f : Vec → Family),
      handler m' ryu le (fun i => shownBy t (onVector i (onVecs (B i)))) (TextEnc.new []) = (.ok out, TextEnc.new []) ∧
      readFamilies rf out = some [f .requests, f .responses, f .duration] ∧
      (f .requests).samples.length ≤ 24 ∧ (f .responses).samples.length ≤ 45 ∧ (f .duration).samples.length ≤ 456 ∧
      ∀ i, ∀ s ∈ (f i).samples, ∃ p ∈ pathLabels, (b!"path", p) ∈ s.labels := by
  obtain ⟨out, f, h1, h2, h3⟩ := C80_scrape F m' h hc hlen hle A B C acc htr hone
  have hll : le.length = 16 := by
    obtain ⟨le', hle', hl, _⟩ := C80_thresholds
    rw [hle] at hle'
    cases hle'; exact hl
  have hsub : ∀ i x g, MayIn i g (A i ++ B i) x → g ∈ allGroups i := by
    intro i x g hm
    have hq' : FromHttp a q (A i ++ B i) := by
      have hs : ∀ e ∈ A i ++ B i, e ∈ tr := by
        intro e he
        rw [htr i]
        rcases List.mem_append.1 he with he | he
        · exact List.mem_append_left _ (List.mem_append_left _ he)
        · exact List.mem_append_left _ (List.mem_append_right _ (List.mem_cons_of_mem _ he))
      exact ⟨fun x r hb => hq.1 x r (hs _ hb), fun x st hb => hq.2 x st (hs _ hb)⟩
    exact may_listed L hq' hm
  have r1 := family_bounded (gs := allGroups .requests) (n := 1) (h3 .requests)
    (fun k v hk => hsub .requests _ k hk.2.choose_spec) (fun _ _ _ => rfl) (fun k hk => group_path hk)
    (fun k v e he l hl => by rw [List.mem_singleton.1 he]; exact hl)
  have r2 := family_bounded (gs := allGroups .responses) (n := 1) (h3 .responses)
    (fun k v hk => hsub .responses _ k hk.2.choose_spec) (fun _ _ _ => rfl) (fun k hk => group_path hk)
    (fun k v e he l hl => by rw [List.mem_singleton.1 he]; exact hl)
  have r3 := family_bounded (gs := allGroups .duration) (n := 19) (h3 .duration)
    (fun k v hk => hsub .duration _ k hk.1.2.choose_spec)
    (fun k v _ => by
      show (shownHistogram le _ _ _).length = 19
      simp [shownHistogram, hll])
    (fun k hk => group_path hk)
    (fun k v e he l hl => by
      have he : e ∈ shownHistogram le _ (seriesLabels .duration k) v := he
      have hl : l ∈ seriesLabels .duration k := hl
      simp only [shownHistogram, List.mem_append, List.mem_map, List.mem_cons, List.not_mem_nil, or_false] at he
      rcases he with ⟨b, _, rfl⟩ | rfl | rfl | rfl
      · exact List.mem_append_left _ hl
      · exact List.mem_append_left _ hl
      · exact hl
      · exact hl)
  refine ⟨out, f, h1, h2, ?_, ?_, ?_, fun i => ?_⟩
  · exact Nat.le_trans r1.1 (Nat.mul_le_mul_right 1 (Nat.le_of_eq (groups_length .requests)))
  · exact Nat.le_trans r2.1 (Nat.mul_le_mul_right 1 (Nat.le_of_eq (groups_length .responses)))
  · exact Nat.le_trans r3.1 (Nat.mul_le_mul_right 19 (Nat.le_of_eq (groups_length .duration)))
  cases i
  exacts [r1.2, r2.2, r3.2]

/-- C83, one after the other: if any requests come by HTTP one after the other and are answered by the routes, and then one
more collects the metrics, its text shows exactly how many there were with each path, method and status. -/
theorem C83_sequential (L : Finds a) (F : FloatText ryu rf) (m m' : Mode) (c : Vec → ShardConf Key)
    (hc : ∀ i k, (c i).shardOf k < (c i).n) (qs : List HttpReq) (r : HttpReq) (hcap : 8 ≤ cap)
    (hfew : qs.length + 1 < 2 ^ 63) {le : List F64} (hle : thresholds = .ok le) :
    ∃ (tr : List Event) (s : Sys) (A B C : Vec → List Event) (acc : (i : Vec) → List (Key × List i.Call)) (out : Bytes)
      (f : Vec → Family),
      Exec (Step m c) (.new cap) tr s ∧
      (∀ i, tr = A i ++ .on i (.vec (.startPass qs.length)) :: B i ++ .on i (.vec (.endPass qs.length (acc i))) :: C i) ∧
      (∀ j q, qs[j]? = some q → .begin j (q.req a) ∈ tr ∧ .answer j (q.status a) ∈ tr) ∧
      handler m' ryu le (fun i => shownBy qs.length (onVector i (onVecs (B i)))) (TextEnc.new []) = (.ok out, TextEnc.new []) ∧
      readFamilies rf out = some [f .requests, f .responses, f .duration] ∧
      ∀ i, (servedClaim le (qs.map fun q => (q.req a, q.status a)) (r.req a) i).text rf (f i) := by
  obtain ⟨tr, s, A, B, C, acc, out, f, h1, h2, h3, h4, h5, h6⟩ := C80_sequential F m m' c hc
    (qs.map fun q => (q.req a, q.status a))
    (fun q hq => by obtain ⟨q, _, rfl⟩ := List.mem_map.1 hq; exact statuses_ok _ (C83_answers L q)) (r.req a)
    (ps := pathLabels) (fun q hq => by obtain ⟨q, _, rfl⟩ := List.mem_map.1 hq; exact C83_paths L q) (C83_paths L r) hcap
    (List.length_map (as := qs) _ ▸ hfew) hle
  rw [List.length_map] at h2 h4
  exact ⟨tr, s, A, B, C, acc, out, f, h1, h2, fun j q hj => h3 j _ (by rw [List.getElem?_map, hj]; rfl), h4, h5, h6⟩

end

/-! ## Examples -/

/-- The segment in the place of the parameter, if there is one. -/
def exMatch : List Bytes → List Bytes → Option Bytes
  | [], [] => some []
  | s :: ss, t :: ts => match exMatch ss ts with
    | none => none
    | some v => if s.head? = some 0x3a then (if v = [] ∧ t ≠ [] then some t else none) else if s = t then some v else none
  | _, _ => none

/-- A search that goes through the routes in order, and a decoding that takes `%ff` for not UTF-8. -/
def exAxum : Axum where
  find x := routePaths.findSome? fun p => (exMatch (segments p) (segments x)).map fun v => (p, v)
  decode v := if v = b!"%ff" then none else some v

theorem exMatch_fills : ∀ {ss ts : List Bytes} {v : Bytes}, exMatch ss ts = some v →
    (v = [] → ∀ s ∈ ss, ¬ IsParam s) ∧ List.Forall₂ (fun s t => IsParam s ∧ t = v ∨ ¬ IsParam s ∧ t = s) ss ts
  | [], [], v, _ => ⟨fun _ _ h => by (cases h), .nil⟩
  | s :: ss, t :: ts, v, h => by
    unfold exMatch at h
    cases e : exMatch ss ts with
    | none => rw [e] at h; cases h
    | some w =>
      obtain ⟨h1, h2⟩ := exMatch_fills e
      rw [e] at h
      simp only at h
      split at h
      · rename_i hs
        split at h
        · rename_i hw
          cases h
          refine ⟨fun h => absurd h hw.2, .cons (.inl ⟨hs, rfl⟩) ?_⟩
          obtain ⟨rfl, -⟩ := hw
          replace h1 := h1 rfl
          clear e
          induction h2 with
          | nil => exact .nil
          | cons h _ ih =>
            refine .cons (.inr ?_) (ih fun s hs => h1 s (List.mem_cons_of_mem _ hs))
            rcases h with ⟨h, -⟩ | h
            · exact absurd h (h1 _ List.mem_cons_self)
            · exact h
        · cases h
      · rename_i hs
        split at h
        · rename_i hst
          cases h
          subst hst
          refine ⟨fun h s' hs' => ?_, .cons (.inr ⟨hs, rfl⟩) h2⟩
          rcases List.mem_cons.1 hs' with rfl | hs'
          · exact hs
          · exact h1 h s' hs'
        · cases h
  | [], _ :: _, _, h => by cases h
  | _ :: _, [], _, h => by cases h

theorem exMatch_finds : ∀ {ss ts : List Bytes} {v : Bytes}, (ss.filter fun s => s.head? = some 0x3a).length ≤ 1 → v ≠ [] →
    List.Forall₂ (fun s t => IsParam s ∧ t = v ∨ ¬ IsParam s ∧ t = s) ss ts →
    exMatch ss ts = if (ss.filter fun s => s.head? = some 0x3a) = [] then some [] else some v
  | _, _, _, _, _, .nil => rfl
  | s :: ss, t :: ts, v, hl, hv, .cons h hs => by
    unfold exMatch
    rcases h with ⟨h, rfl⟩ | ⟨h, rfl⟩
    · have h : s.head? = some 0x3a := h
      have hn : (ss.filter fun s => s.head? = some 0x3a) = [] := by
        rw [List.filter_cons_of_pos (by simpa using h), List.length_cons] at hl
        exact List.length_eq_zero_iff.1 (by omega)
      rw [exMatch_finds (by rw [hn]; exact Nat.zero_le _) hv hs, if_pos hn]
      simp [h, hv]
    · have h' : ¬ t.head? = some 0x3a := h
      rw [List.filter_cons_of_neg (by simpa using h')] at hl ⊢
      rw [exMatch_finds hl hv hs]
      by_cases he : (ss.filter fun s => s.head? = some 0x3a) = []
      · simp only [if_pos he, if_neg h', if_true]
      · simp only [if_neg he, if_neg h', if_true]

/-- The laws for the search can be met. -/
theorem exAxum_finds : Finds exAxum where
  sound x p v h := by
    obtain ⟨p', hp', e⟩ := List.exists_of_findSome?_eq_some h
    obtain ⟨w, hw, e⟩ := Option.map_eq_some_iff.1 e
    cases e
    exact ⟨hp', (exMatch_fills hw).2⟩
  complete x p v hp hf hv h := by
    have := List.findSome?_eq_none_iff.1 h p hp
    have hone : ∀ p ∈ routePaths, ((segments p).filter fun s => s.head? = some 0x3a).length ≤ 1 := by decide +kernel
    rw [exMatch_finds (hone p hp) hv hf] at this
    split at this <;> cases this

/-- Some requests. -/
def exHttp : List HttpReq :=
  [⟨b!"/api/v1/users/current", b!"GET"⟩, ⟨b!"/api/v1/users/42", b!"GET"⟩, ⟨b!"/api/v1/users/43", b!"GET"⟩,
    ⟨b!"/api/v1/products/42/owner", b!"DELETE"⟩, ⟨b!"/favicon.ico", b!"GET"⟩]

example : (exHttp.map fun q => ((q.req exAxum).path, (q.req exAxum).method, q.status exAxum)) =
    [(b!"/api/v1/users/:id", .get, 200), (b!"/api/v1/users/:id", .get, 400), (b!"/api/v1/users/:id", .get, 400),
      (b!"/api/v1/products/:id/owner", .other, 405), (b!"unknown", .get, 404)] := by
  decide +kernel

/-- The path of the second is an instance of a route; that of the last is not. -/
example : Fills b!"/api/v1/users/:id" b!"42" b!"/api/v1/users/42" ∧
    ∀ p v, p ∈ routePaths → ¬ Fills p v b!"/favicon.ico" := by
  refine ⟨?_, fun p v hp hf => ?_⟩
  · refine .cons (.inr ?_) (.cons (.inr ?_) (.cons (.inr ?_) (.cons (.inr ?_) (.cons (.inl ?_) .nil)))) <;> decide
  · have : ∀ p ∈ routePaths, mayMeet (segments p) (segments b!"/favicon.ico") = false := by decide +kernel
    have h1 := this p hp
    have h2 : Fills b!"/favicon.ico" [] b!"/favicon.ico" :=
      .cons (.inr (by decide)) (.cons (.inr (by decide)) .nil)
    exact Bool.false_ne_true (h1.symm.trans (mayMeet_of hf h2))

/-- A parameter that is the word, one that is not, and none. -/
example : HttpReq.status exAxum ⟨b!"/api/v1/products/awesome/owner", b!"HEAD"⟩ = 200 ∧
    HttpReq.status exAxum ⟨b!"/api/v1/products/42/owner", b!"GET"⟩ = 404 ∧
    HttpReq.status exAxum ⟨b!"/api/v1/products/%ff/owner", b!"GET"⟩ = 400 ∧
    HttpReq.status exAxum ⟨b!"/api/v1/products/awesome", b!"POST"⟩ = 201 := by
  decide +kernel

/-- Each line of the table is there for a reason: there are requests for all 45 answers, and so for all 24 label groups. -/
theorem C83_all_answers : ∃ qs : List HttpReq,
    ∀ t ∈ responseLabels, t ∈ qs.map fun q => ((q.req exAxum).path, (q.req exAxum).method, q.status exAxum) := by
  refine ⟨[b!"/api/v1/users", b!"/api/v1/users/current", b!"/api/v1/users/42", b!"/api/v1/users/%ff", b!"/api/v1/products",
    b!"/api/v1/products/awesome", b!"/api/v1/products/42", b!"/api/v1/products/%ff", b!"/api/v1/products/awesome/owner",
    b!"/api/v1/products/42/owner", b!"/api/v1/products/%ff/owner", b!"/api/v1/products/awesome/purchase",
    b!"/api/v1/products/42/purchase", b!"/api/v1/products/%ff/purchase", b!"/metrics", b!"/"].flatMap fun p =>
    [⟨p, b!"GET"⟩, ⟨p, b!"HEAD"⟩, ⟨p, b!"POST"⟩, ⟨p, b!"DELETE"⟩], ?_⟩
  decide +kernel

/-- The requests can be served with room for eight paths, and the metrics show them. -/
example {ryu : F64 → Bytes} {rf : Bytes → Option F64} (F : FloatText ryu rf) : ∃ (le : List F64) (out : Bytes) (f : Vec → Family),
    readFamilies rf out = some [f .requests, f .responses, f .duration] ∧
    ∀ i, (servedClaim le (exHttp.map fun q => (q.req exAxum, q.status exAxum)) (HttpReq.req exAxum ⟨b!"/metrics", b!"GET"⟩) i).text
      rf (f i) := by
  obtain ⟨le, hle, _⟩ := C80_thresholds
  obtain ⟨tr, s, A, B, C, acc, out, f, _, _, _, _, h1, h2⟩ := C83_sequential exAxum_finds F .debug .release exShards
    (fun _ k => Nat.mod_lt k.1 (y := 4) (by decide)) exHttp ⟨b!"/metrics", b!"GET"⟩ (cap := 8) (by decide) (by decide) hle
  exact ⟨le, out, f, h1, h2⟩

end Measured.Server
