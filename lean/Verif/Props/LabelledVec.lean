import Verif.Spec.LabelledVec
import Verif.Props.ConcScrape
import Verif.Props.EncodeConc
import Verif.Props.Series

/-!
# C75: a sparse vector in use together with its label set
-/

namespace Measured.Conc
open Measured Measured.Spec

section
variable {S V U : Type} {D : DynSet S V} {inv : S → Prop} {le : S → S → Prop} {valid : S → Nat → Prop}

theorem labEvents_append {n : Nat} (a b : List (LVEvent V U n)) : labEvents (a ++ b) = labEvents a ++ labEvents b := by
  induction a with
  | nil => rfl
  | cons e a ih => cases e <;> simp [labEvents, ih]

theorem vecEvents_append {n : Nat} (a b : List (LVEvent V U n)) : vecEvents (a ++ b) = vecEvents a ++ vecEvents b := by
  induction a with
  | nil => rfl
  | cons e a ih => cases e <;> simp [vecEvents, ih]

theorem mem_labEvents {n : Nat} {tr : List (LVEvent V U n)} {e : LabelEvent V n} : e ∈ labEvents tr ↔ .lab e ∈ tr := by
  induction tr with
  | nil => simp [labEvents]
  | cons x tr ih => cases x <;> simp [labEvents, ih]

/-- The interners and the map run as they do on their own. -/
theorem lv_project {m : Mode} {d : GroupDef V} {c : ShardConf (Nat × List Nat)} {h : Heap S}
    {tr : List (LVEvent V U d.n)} {s : LVSys S V U d.n} (he : Exec (LVStep m D d c) (.new h) tr s) :
    Exec (LabelStep m D d) (.start h) (labEvents tr) s.lab ∧ Exec (SStep c) SSys.new (vecEvents tr) s.vec ∧
      ∀ t k g, s.seen t = some (k, g) → .decoded t k g ∈ labEvents tr := by
  induction he with
  | nil => exact ⟨.nil, .nil, by intro t k g hs; cases hs⟩
  | @snoc tr s e s' he hs ih =>
    obtain ⟨i1, i2, i3⟩ := ih
    rw [labEvents_append, vecEvents_append]
    cases hs with
    | lab hl =>
      refine ⟨.snoc i1 hl, by simpa [vecEvents] using i2, fun t k g hd => ?_⟩
      rename_i e l
      cases e with
      | decoded t' u g' =>
        simp only [noteDecode, Function.update_apply] at hd
        split at hd
        · rename_i ht
          cases ht; cases hd
          simp [labEvents]
        · exact List.mem_append_left _ (i3 _ _ _ hd)
      | _ => exact List.mem_append_left _ (i3 _ _ _ hd)
    | vec hv _ => exact ⟨by simpa [labEvents] using i1, .snoc i2 hv, by simpa [labEvents] using i3⟩
    | shown hv _ =>
      refine ⟨by simpa [labEvents] using i1, .snoc i2 hv, fun t k g hd => ?_⟩
      simp only [Function.update_apply] at hd
      split at hd
      · cases hd
      · exact List.mem_append_left _ (i3 _ _ _ hd)

/-- What is written for a key is written for the group that the key was handed out for. -/
theorem lv_shown {m : Mode} (L : DynSetLaws D inv le valid) {d : GroupDef V}
    (hl : FieldsLawful FixedSetLaws d) (hf : Spec.Fits d) {c : ShardConf (Nat × List Nat)} {h : Heap S} (hh : HeapInv inv h)
    {tr : List (LVEvent V U d.n)} {s : LVSys S V U d.n} (he : Exec (LVStep m D d c) (.new h) tr s)
    {t : Tid} {k : Nat × List Nat} {g : d.Group} {us : List U} (hm : .shown t k g us ∈ tr) : HandedOut tr g k := by
  obtain ⟨a, b, rfl⟩ := List.append_of_mem hm
  obtain ⟨s₁, h1, h2⟩ := exec_split a _ he
  obtain ⟨s₂, hs, _⟩ := exec_cons_inv h2
  obtain ⟨i1, _, i3⟩ := lv_project h1
  cases hs with
  | shown _ hd =>
    obtain ⟨t', ht'⟩ := (label_inv m L d (allLawful_of_fields hl) _ (fits_checked hf) h hh i1).dec _ _ _ (i3 _ _ _ hd)
    exact ⟨t', List.mem_append_left _ (mem_labEvents.1 ht')⟩

theorem mem_shownBy {n : Nat} {t : Tid} {tr : List (LVEvent V U n)} {g : Fin n → V} {us : List U}
    (h : (g, us) ∈ shownBy t tr) : ∃ k, .shown t k g us ∈ tr ∧ (k, us) ∈ emitted t (vecEvents tr) := by
  induction tr with
  | nil => cases h
  | cons e tr ih =>
    cases e with
    | lab e => obtain ⟨k, h1, h2⟩ := ih h; exact ⟨k, List.mem_cons_of_mem _ h1, h2⟩
    | vec e =>
      obtain ⟨k, h1, h2⟩ := ih h
      refine ⟨k, List.mem_cons_of_mem _ h1, ?_⟩
      cases e <;> simp only [vecEvents, emitted] <;> first | exact h2 | skip
      split
      · exact List.mem_cons_of_mem _ h2
      · exact h2
    | shown t' k' g' us' =>
      simp only [shownBy] at h
      simp only [vecEvents, emitted]
      split at h
      · rename_i ht
        rw [if_pos ht]
        subst ht
        rcases List.mem_cons.1 h with h | h
        · cases h; exact ⟨k', by simp, by simp⟩
        · obtain ⟨k, h1, h2⟩ := ih h
          exact ⟨k, List.mem_cons_of_mem _ h1, List.mem_cons_of_mem _ h2⟩
      · rename_i ht
        rw [if_neg ht]
        obtain ⟨k, h1, h2⟩ := ih h
        exact ⟨k, List.mem_cons_of_mem _ h1, h2⟩

/-- The entries written for groups are the entries that the map gave, key by key. -/
theorem shownBy_emitted {n : Nat} {t : Tid} {tr : List (LVEvent V U n)}
    (hno : ∀ t k us, .vec (.emit t k us) ∉ tr) :
    List.Forall₂ (fun (q : (Fin n → V) × List U) (r : (Nat × List Nat) × List U) =>
      q.2 = r.2 ∧ .shown t r.1 q.1 q.2 ∈ tr) (shownBy t tr) (emitted t (vecEvents tr)) := by
  induction tr with
  | nil => exact .nil
  | cons e tr ih =>
    have ih' := (ih fun t k us hm => hno t k us (List.mem_cons_of_mem _ hm)).imp
      (S := fun (q : (Fin n → V) × List U) (r : (Nat × List Nat) × List U) =>
        q.2 = r.2 ∧ .shown t r.1 q.1 q.2 ∈ e :: tr) fun q r h => ⟨h.1, List.mem_cons_of_mem _ h.2⟩
    cases e with
    | lab e => exact ih'
    | vec e =>
      cases e with
      | emit u k us => exact absurd (List.mem_cons_self ..) (hno u k us)
      | _ => exact ih'
    | shown t' k' g' us' =>
      simp only [shownBy, vecEvents, emitted]
      split
      · rename_i ht
        subst ht
        exact .cons ⟨rfl, List.mem_cons_self ..⟩ ih'
      · exact ih'

theorem lv_no_emit {m : Mode} {d : GroupDef V} {c : ShardConf (Nat × List Nat)} {s₀ : LVSys S V U d.n}
    {tr : List (LVEvent V U d.n)} {s : LVSys S V U d.n} (he : Exec (LVStep m D d c) s₀ tr s) (t : Tid)
    (k : Nat × List Nat) (us : List U) : .vec (.emit t k us) ∉ tr := by
  induction he with
  | nil => simp
  | snoc he hs ih =>
    intro hm
    rcases List.mem_append.1 hm with hm | hm
    · exact ih hm
    · rw [List.mem_singleton] at hm
      subst hm
      cases hs with
      | vec _ ha => exact ha

/-- The key that a thread is looking up. -/
def SPc.getting {K U : Type} : SPc K U → Option K
  | .getRead k | .probe k | .missed k | .getWrite k | .insert k => some k
  | _ => none

theorem getting_inv {K : Type} [DecidableEq K] {c : ShardConf K} {tr : List (SEvent K U)} {s : SSys K U}
    (h : Exec (SStep c) SSys.new tr s) (t : Tid) (k : K) (hp : (s.thr t).pc.getting = some k) : .startGet t k ∈ tr := by
  induction h generalizing t k with
  | nil => cases hp
  | @snoc tr s e s' he hs ih =>
    rw [List.mem_append, List.mem_singleton]
    have keep : (s'.thr t).pc = (s.thr t).pc → SEvent.startGet t k ∈ tr := fun e => ih t k (by rw [← e]; exact hp)
    have go : ∀ (u : Tid) (p : SPc K U) (gs : List K) (x : Tid → SThread K U), x = s.thr →
        s'.thr = Function.update x u ⟨p, gs⟩ → (p.getting = some k → u = t → SEvent.startGet t k ∈ tr) →
        SEvent.startGet t k ∈ tr := by
      rintro u p gs x rfl hx hg
      by_cases ht : t = u
      · subst ht
        rw [hx, Function.update_self] at hp
        exact hg hp rfl
      · exact keep (by rw [hx, Function.update_of_ne ht])
    cases hs with
    | startGet u k' h =>
      by_cases ht : t = u
      · subst ht
        simp only [SSys.goto, Function.update_self, SPc.getting, Option.some.injEq] at hp
        subst hp
        exact .inr rfl
      · exact .inl (keep (by simp only [SSys.goto, Function.update_of_ne ht]))
    | update => exact .inl (keep rfl)
    | lockRead u k' h => exact .inl (go u _ _ _ rfl rfl fun hg hu => ih t k (by subst hu; rw [h]; exact hg))
    | miss u k' h => exact .inl (go u _ _ _ rfl rfl fun hg hu => ih t k (by subst hu; rw [h]; exact hg))
    | missRelease u k' h => exact .inl (go u _ _ _ rfl rfl fun hg hu => ih t k (by subst hu; rw [h]; exact hg))
    | lockWrite u k' h => exact .inl (go u _ _ _ rfl rfl fun hg hu => ih t k (by subst hu; rw [h]; exact hg))
    | _ => exact .inl (go _ _ _ _ rfl rfl fun hg _ => nomatch hg)

theorem mapOf_started {K : Type} [DecidableEq K] {c : ShardConf K} {tr : List (SEvent K U)} {s : SSys K U}
    (h : Exec (SStep c) SSys.new tr s) {k : K} (hk : mapOf tr k ≠ none) : ∃ t, .startGet t k ∈ tr := by
  induction h with
  | nil => exact absurd rfl hk
  | @snoc tr s e s' he hs ih =>
    rw [mapOf_snoc] at hk
    have old : mapOf tr k ≠ none → ∃ t, SEvent.startGet t k ∈ tr ++ [e] := fun h => by
      obtain ⟨t, ht⟩ := ih h
      exact ⟨t, List.mem_append_left _ ht⟩
    cases e with
    | insert t k' =>
      simp only [mapAfter] at hk
      split at hk
      · rename_i hkk
        subst hkk
        cases hs with
        | insertNew _ _ l hp =>
          exact ⟨t, List.mem_append_left _ (getting_inv he t _ (by rw [hp]; rfl))⟩
      · exact old hk
    | update t k' u =>
      simp only [mapAfter] at hk
      split at hk
      · rename_i hkk
        subst hkk
        exact old fun hn => hk (by rw [hn]; rfl)
      · exact old hk
    | remove t k' r =>
      simp only [mapAfter] at hk
      split at hk
      · exact absurd rfl hk
      · exact old hk
    | _ => exact old hk

/-- C75. Every key of the map was handed out by `encode`, and decoding it gives the group it was handed out for: the
collecting thread finds a group for every entry. -/
theorem C75_keys (m m' : Mode) (L : DynSetLaws D inv le valid) (d : GroupDef V)
    (hl : FieldsLawful FixedSetLaws d) (hf : Spec.Fits d) (c : ShardConf (Nat × List Nat)) (h : Heap S)
    (hh : HeapInv inv h) {tr : List (LVEvent V U d.n)} {s : LVSys S V U d.n}
    (he : Exec (LVStep m D d c) (.new h) tr s) {i : Nat} {k : Nat × List Nat} {us : List U} (hk : (k, us) ∈ s.vec.shards i) :
    k ∈ s.lab.ids ∧ ∃ g, HandedOut tr g k ∧ (derived m' D d).decode s.lab.heap k = .ok g := by
  obtain ⟨i1, i2, i3⟩ := lv_project he
  have hids : k ∈ s.lab.ids := by
    obtain ⟨t, ht⟩ := mapOf_started i2 (k := k) (by rw [(((C23_contents i2).2 _ _ _).1 hk).2]; simp)
    clear hk i1 i2 i3
    induction he with
    | nil => cases ht
    | @snoc tr s e s' he hs ih =>
      have grow : ∀ l, LabelStep m D d s.lab l s'.lab → k ∈ s.lab.ids → k ∈ s'.lab.ids := by
        intro l hl hk
        generalize s'.lab = x at hl
        cases hl <;> first | exact hk | exact List.mem_cons_of_mem _ hk
      rw [vecEvents_append, List.mem_append] at ht
      cases hs with
      | lab hl =>
        rcases ht with ht | ht
        · exact grow _ hl (ih ht)
        · cases ht
      | vec hv ha =>
        rcases ht with ht | ht
        · exact ih ht
        · simp only [vecEvents, List.mem_singleton] at ht
          subst ht
          exact ha
      | shown hv _ =>
        rcases ht with ht | ht
        · exact ih ht
        · simp [vecEvents] at ht
  refine ⟨hids, ?_⟩
  obtain ⟨t, g, hg⟩ := (label_inv m L d (allLawful_of_fields hl) _ (fits_checked hf) h hh i1).ids k hids
  exact ⟨g, ⟨t, mem_labEvents.1 hg⟩, (C66_decode m m' L d hl hf h hh i1 hg).2⟩

/-- C75. No call panics: neither in the label set nor in the map. -/
theorem C75_no_panic (m : Mode) (L : DynSetLaws D inv le valid) (d : GroupDef V)
    (hl : FieldsLawful FixedSetLaws d) (hf : Spec.Fits d) (c : ShardConf (Nat × List Nat)) (h : Heap S) (hh : HeapInv inv h)
    {tr : List (LVEvent V U d.n)} {s : LVSys S V U d.n} (he : Exec (LVStep m D d c) (.new h) tr s) (t : Tid) :
    .lab (.panic t) ∉ tr ∧ .vec (.panic t) ∉ tr := by
  obtain ⟨i1, i2, _⟩ := lv_project he
  refine ⟨fun hm => C66_no_panic m L d hl hf h hh i1 t (mem_labEvents.2 hm), fun hm => ?_⟩
  obtain ⟨a, b, rfl⟩ := List.append_of_mem hm
  rw [vecEvents_append] at i2
  exact C23_linearizable i2

theorem mem_vecEvents_start {n : Nat} {tr : List (LVEvent V U n)} {t : Tid} (hm : .startPass t ∈ vecEvents tr) :
    .vec (.startPass t) ∈ tr := by
  induction tr with
  | nil => cases hm
  | cons e tr ih =>
    cases e with
    | lab e => exact List.mem_cons_of_mem _ (ih hm)
    | vec e =>
      rcases List.mem_cons.1 hm with hm | hm
      · rw [hm]; exact List.mem_cons_self ..
      · exact List.mem_cons_of_mem _ (ih hm)
    | shown t' k g us =>
      rcases List.mem_cons.1 hm with hm | hm
      · cases hm
      · exact List.mem_cons_of_mem _ (ih hm)

theorem mem_vecEvents_update {n : Nat} {tr : List (LVEvent V U n)} {t : Tid} {k : Nat × List Nat} {u : U}
    (hm : .update t k u ∈ vecEvents tr) : .vec (.update t k u) ∈ tr := by
  induction tr with
  | nil => cases hm
  | cons e tr ih =>
    cases e with
    | lab e => exact List.mem_cons_of_mem _ (ih hm)
    | vec e =>
      rcases List.mem_cons.1 hm with hm | hm
      · rw [hm]; exact List.mem_cons_self ..
      · exact List.mem_cons_of_mem _ (ih hm)
    | shown t' k g us =>
      rcases List.mem_cons.1 hm with hm | hm
      · cases hm
      · exact List.mem_cons_of_mem _ (ih hm)

/-- The events of the map are steps of it; only entries are written as `shown`. -/
theorem mem_vecEvents {n : Nat} {tr : List (LVEvent V U n)} {e : SEvent (Nat × List Nat) U} (he : ∀ t k us, e ≠ .emit t k us) :
    e ∈ vecEvents tr ↔ .vec e ∈ tr := by
  induction tr with
  | nil => simp [vecEvents]
  | cons x tr ih => cases x <;> simp [vecEvents, ih, he]

theorem forall₂_left {α β : Type} {R : α → β → Prop} {l : List α} {k : List β} (h : List.Forall₂ R l k) {a : α}
    (ha : a ∈ l) : ∃ b ∈ k, R a b := by
  induction h with
  | nil => cases ha
  | cons h _ ih =>
    rcases List.mem_cons.1 ha with rfl | ha
    · exact ⟨_, List.mem_cons_self .., h⟩
    · obtain ⟨b, hb, e⟩ := ih ha
      exact ⟨b, List.mem_cons_of_mem _ hb, e⟩

theorem forall₂_right {α β : Type} {R : α → β → Prop} {l : List α} {k : List β} (h : List.Forall₂ R l k) {b : β}
    (hb : b ∈ k) : ∃ a ∈ l, R a b := by
  obtain ⟨a, ha, e⟩ := forall₂_left h.flip hb
  exact ⟨a, ha, e⟩

/-- In a pass no group is written twice, each as it was, and none is left out that was there. -/
theorem lv_pass {m : Mode} (L : DynSetLaws D inv le valid) {d : GroupDef V}
    (hl : FieldsLawful FixedSetLaws d) (hf : Spec.Fits d) {c : ShardConf (Nat × List Nat)} (hc : ∀ k, c.shardOf k < c.n)
    {h : Heap S} (hh : HeapInv inv h) {tr₁ tr₂ tr₃ : List (LVEvent V U d.n)} {t : Tid}
    {acc : List ((Nat × List Nat) × List U)} {s : LVSys S V U d.n}
    (he : Exec (LVStep m D d c) (.new h) (tr₁ ++ .vec (.startPass t) :: tr₂ ++ .vec (.endPass t acc) :: tr₃) s)
    (hone : .vec (.startPass t) ∉ tr₂) :
    ((shownBy t tr₂).map Prod.fst).Nodup ∧
      (∀ g us, (g, us) ∈ shownBy t tr₂ → (∃ k, HandedOut (tr₁ ++ .vec (.startPass t) :: tr₂) g k) ∧
        ∀ k, HandedOut (tr₁ ++ .vec (.startPass t) :: tr₂) g k →
          ∃ p, p <+: vecEvents tr₂ ∧ mapOf (vecEvents tr₁ ++ .startPass t :: p) k = some us) ∧
      ∀ g, GroupThere t tr₁ tr₂ g → g ∈ (shownBy t tr₂).map Prod.fst := by
  obtain ⟨s₁, h1, _⟩ := exec_split (tr₁ ++ .vec (.startPass t) :: tr₂) _ he
  obtain ⟨i1, _, _⟩ := lv_project h1
  have agree : ∀ {g g' : d.Group} {k k'}, HandedOut (tr₁ ++ .vec (.startPass t) :: tr₂) g k →
      HandedOut (tr₁ ++ .vec (.startPass t) :: tr₂) g' k' → (k = k' ↔ g = g') := fun ⟨u, hu⟩ ⟨u', hu'⟩ =>
    C66_agree m L d hl hf h hh i1 (mem_labEvents.2 hu) (mem_labEvents.2 hu')
  have given : ∀ {k} {g : d.Group} {us}, .shown t k g us ∈ tr₂ → HandedOut (tr₁ ++ .vec (.startPass t) :: tr₂) g k :=
    fun hm => lv_shown L hl hf hh h1 (List.mem_append_right _ (List.mem_cons_of_mem _ hm))
  have hv := (lv_project he).2.1
  simp only [vecEvents_append, vecEvents] at hv
  have hone' : SEvent.startPass t ∉ vecEvents tr₂ := fun hm => hone (mem_vecEvents_start hm)
  obtain ⟨p1, p2, p3⟩ := C24_pass hc hv hone'
  have hall := shownBy_emitted (t := t) (tr := tr₂) fun u k us hm =>
    lv_no_emit h1 u k us (List.mem_append_right _ (List.mem_cons_of_mem _ hm))
  refine ⟨?_, fun g us hq => ?_, ?_⟩
  · revert p1
    clear p2 p3
    generalize shownBy t tr₂ = a, emitted t (vecEvents tr₂) = b at hall
    intro p1
    induction hall with
    | nil => exact List.nodup_nil
    | @cons q r a b hqr hall ih =>
      rw [List.map_cons, List.nodup_cons] at p1 ⊢
      refine ⟨fun hm => p1.1 ?_, ih p1.2⟩
      obtain ⟨q', hq', e⟩ := List.mem_map.1 hm
      obtain ⟨r', hr', e1, e2⟩ := forall₂_left hall hq'
      refine List.mem_map.2 ⟨r', hr', ?_⟩
      exact (agree (given e2) (given hqr.2)).2 e
  · obtain ⟨k, h2, h3⟩ := mem_shownBy hq
    refine ⟨⟨k, given h2⟩, fun k' hk' => ?_⟩
    obtain rfl := (agree (given h2) hk').2 rfl
    exact p2 k us h3
  · rintro g ⟨k, hk, hthere⟩
    obtain ⟨us, hus⟩ := p3 k hthere
    obtain ⟨q, hq, e1, e2⟩ := forall₂_right hall hus
    exact List.mem_map.2 ⟨q, hq, (agree (given e2) hk).1 rfl⟩

/-- The text of a pass. -/
theorem lv_pass_text {M A : Type} {o : MetricOps U M} {okC : U → Prop} {conc : A → M} {zero : A} {apply : U → A → A}
    (hF : Follows o okC conc zero apply) {m : Mode} (L : DynSetLaws D inv le valid) {d : GroupDef V}
    (hl : FieldsLawful FixedSetLaws d) (hf : Spec.Fits d) {c : ShardConf (Nat × List Nat)} (hc : ∀ k, c.shardOf k < c.n)
    {h : Heap S} (hh : HeapInv inv h) {tr₁ tr₂ tr₃ : List (LVEvent V U d.n)} {t : Tid}
    {acc : List ((Nat × List Nat) × List U)} {s : LVSys S V U d.n}
    (he : Exec (LVStep m D d c) (.new h) (tr₁ ++ .vec (.startPass t) :: tr₂ ++ .vec (.endPass t acc) :: tr₃) s)
    (hone : .vec (.startPass t) ∉ tr₂) (hok : ∀ v k x, .vec (.update v k x) ∈ tr₁ ++ tr₂ → okC x)
    {ryu : F64 → Bytes} {rf : Bytes → Option F64} (F : FloatText ryu rf) (m' : Mode) (n : Name)
    (hn : MetricNameRe n.text) (visit : d.Group → Labels) (hv : ∀ g, LabelsOk (visit g)) (kind : Kind)
    (view : M → Metric) (shown : Bytes → Labels → A → List Expected) (hk : ∀ x, (view x).kind = kind)
    (hfit : ∀ p k us ls, p <+: vecEvents tr₂ → mapOf (vecEvents tr₁ ++ .startPass t :: p) k = some us →
      (∀ x ∈ us, okC x) →
      Measured.Fits (view (conc (sumUp apply zero us))) ∧ expected n.text ls (view (conc (sumUp apply zero us))) =
        shown n.text ls (sumUp apply zero us)) :
    ∃ st out, passEncode (textEncoder m' ryu) n kind visit view o (shownBy t tr₂) (TextEnc.new []) =
        (.ok (), ⟨st, out⟩) ∧
      PassShows rf n.text kind visit shown (GroupWas t tr₁ tr₂ zero apply) (GroupThere t tr₁ tr₂) out := by
  obtain ⟨p1, p2, p3⟩ := lv_pass L hl hf hc hh he hone
  have good : ∀ q ∈ shownBy t tr₂, ∃ k p, p <+: vecEvents tr₂ ∧
      mapOf (vecEvents tr₁ ++ .startPass t :: p) k = some q.2 ∧ ∀ x ∈ q.2, okC x := by
    rintro ⟨g, us⟩ hq
    obtain ⟨⟨k, hk⟩, e⟩ := p2 g us hq
    obtain ⟨p, hp, hm⟩ := e k hk
    refine ⟨k, p, hp, hm, fun x hx => ?_⟩
    obtain ⟨v, hv⟩ := mem_mapOf_update hm hx
    refine hok v k x (List.mem_append.2 ?_)
    simp only [List.mem_append, List.mem_cons, reduceCtorEq, false_or] at hv
    exact hv.imp mem_vecEvents_update fun hv => mem_vecEvents_update (hp.subset hv)
  obtain ⟨st, out, ss, e1, e2, e3⟩ := pass_text hF (shownBy t tr₂) (fun q hq => by
      obtain ⟨_, _, _, _, e⟩ := good q hq
      exact e) F m' n hn visit kind view shown hk (fun q hq => by
      obtain ⟨k, p, hp, hm, e⟩ := good q hq
      exact ⟨hv _, hfit p k _ _ hp hm e⟩)
  refine ⟨st, out, e1, _, ss, ?_, ?_, ?_, e2, e3⟩
  · rw [List.map_map]; exact p1
  · rintro ⟨g, a⟩ hq
    obtain ⟨⟨g', us⟩, hq', e⟩ := List.mem_map.1 hq
    cases e
    obtain ⟨a1, a2⟩ := p2 g' us hq'
    refine ⟨a1, fun k hk => ?_⟩
    obtain ⟨p, hp, hm⟩ := a2 k hk
    exact ⟨p, us, hp, hm, rfl⟩
  · intro g hg
    rw [List.map_map]
    exact p3 g hg

end

section kinds
variable {S V : Type} {D : DynSet S V} {inv : S → Prop} {le : S → S → Prop} {valid : S → Nat → Prop}
variable (m : Mode) (L : DynSetLaws D inv le valid) (d : GroupDef V)
variable (hl : FieldsLawful FixedSetLaws d) (hf : Spec.Fits d) {c : ShardConf (Nat × List Nat)}
variable (hc : ∀ k, c.shardOf k < c.n) (h : Heap S) (hh : HeapInv inv h)
variable {ryu : F64 → Bytes} {rf : Bytes → Option F64} (F : FloatText ryu rf) (m' : Mode)
variable (n : Name) (hn : MetricNameRe n.text) (visit : d.Group → Labels) (hv : ∀ g, ∀ l ∈ visit g, LabelNameRe l.1)
include L hl hf hc hh F hn hv

/-- C75, counters. Threads encode label groups with shared interners, look up, update and remove the metrics of the ids
they were given, and collect, all at the same time. What a thread writes in a pass reads back as one counter family: no
label group twice, each group with the exact total at some moment of the pass of the increments made through ids for that
group, and no group left out that was there during the whole pass. -/
theorem C75_counter (m'' : Mode) {tr₁ tr₂ tr₃ : List (LVEvent V CounterCall d.n)} {t : Tid}
    {acc : List ((Nat × List Nat) × List CounterCall)} {s : LVSys S V CounterCall d.n}
    (he : Exec (LVStep m D d c) (.new h) (tr₁ ++ .vec (.startPass t) :: tr₂ ++ .vec (.endPass t acc) :: tr₃) s)
    (hone : .vec (.startPass t) ∉ tr₂) (hok : ∀ v k x, .vec (.update v k x) ∈ tr₁ ++ tr₂ → CounterCall.Ok x)
    (hfit : ∀ p k us, p <+: vecEvents tr₂ → mapOf (vecEvents tr₁ ++ .startPass t :: p) k = some us →
      sumUp CounterCall.apply 0 us < 2 ^ 63) :
    ∃ st out, passEncode (textEncoder m' ryu) n .counter visit .counter (counterOps m'') (shownBy t tr₂)
        (TextEnc.new []) = (.ok (), ⟨st, out⟩) ∧
      PassShows rf n.text .counter visit shownCounter (GroupWas t tr₁ tr₂ 0 CounterCall.apply)
        (GroupThere t tr₁ tr₂) out := by
  refine lv_pass_text (counter_follows m'') L hl hf hc hh he hone hok F m' n hn visit hv .counter .counter shownCounter
    (fun _ => rfl) fun p k us ls hp hm _ => ?_
  have h2 := hfit p k us hp hm
  have : sumUp CounterCall.apply 0 us % 2 ^ 64 = sumUp CounterCall.apply 0 us := Nat.mod_eq_of_lt (by omega)
  exact ⟨by simp only [this]; exact h2, by simp only [this]; rfl⟩

/-- C75, gauges: the same with the exact integer, if it is an `i64`. -/
theorem C75_gauge (m'' : Mode) {tr₁ tr₂ tr₃ : List (LVEvent V GaugeCall d.n)} {t : Tid}
    {acc : List ((Nat × List Nat) × List GaugeCall)} {s : LVSys S V GaugeCall d.n}
    (he : Exec (LVStep m D d c) (.new h) (tr₁ ++ .vec (.startPass t) :: tr₂ ++ .vec (.endPass t acc) :: tr₃) s)
    (hone : .vec (.startPass t) ∉ tr₂) (hok : ∀ v k x, .vec (.update v k x) ∈ tr₁ ++ tr₂ → GaugeCall.Ok x)
    (hfit : ∀ p k us, p <+: vecEvents tr₂ → mapOf (vecEvents tr₁ ++ .startPass t :: p) k = some us →
      InI64 (sumUp GaugeCall.apply 0 us)) :
    ∃ st out, passEncode (textEncoder m' ryu) n .gauge visit .gauge (gaugeOps m'') (shownBy t tr₂)
        (TextEnc.new []) = (.ok (), ⟨st, out⟩) ∧
      PassShows rf n.text .gauge visit shownGauge (GroupWas t tr₁ tr₂ 0 GaugeCall.apply)
        (GroupThere t tr₁ tr₂) out := by
  refine lv_pass_text (gauge_follows m'') L hl hf hc hh he hone hok F m' n hn visit hv .gauge .gauge shownGauge
    (fun _ => rfl) fun p k us ls hp hm _ => ⟨trivial, by rw [asI64Wrap_eq (hfit p k us hp hm)]; rfl⟩

/-- C75, float gauges: the `f64` result of the calls in the order in which they took effect. -/
theorem C75_float {tr₁ tr₂ tr₃ : List (LVEvent V FloatCall d.n)} {t : Tid}
    {acc : List ((Nat × List Nat) × List FloatCall)} {s : LVSys S V FloatCall d.n}
    (he : Exec (LVStep m D d c) (.new h) (tr₁ ++ .vec (.startPass t) :: tr₂ ++ .vec (.endPass t acc) :: tr₃) s)
    (hone : .vec (.startPass t) ∉ tr₂) :
    ∃ st out, passEncode (textEncoder m' ryu) n .floatGauge visit .floatGauge floatOps (shownBy t tr₂)
        (TextEnc.new []) = (.ok (), ⟨st, out⟩) ∧
      PassShows rf n.text .floatGauge visit shownFloat (GroupWas t tr₁ tr₂ F64.pzero FloatCall.apply)
        (GroupThere t tr₁ tr₂) out :=
  lv_pass_text float_follows L hl hf hc hh he hone (fun _ _ _ _ => trivial) F m' n hn visit hv .floatGauge .floatGauge
    shownFloat (fun _ => rfl) fun _ _ _ _ _ _ _ => ⟨trivial, rfl⟩

/-- C75, histograms: every group shows, for each bound, how many of the observations made until some moment of the pass
were at or below it, with their number and sum. -/
theorem C75_histogram {les : List F64} (hle : NonDecreasing les) (hnan : ∀ b ∈ les, b.isNaN = false)
    {tr₁ tr₂ tr₃ : List (LVEvent V HistCall d.n)} {t : Tid}
    {acc : List ((Nat × List Nat) × List HistCall)} {s : LVSys S V HistCall d.n}
    (he : Exec (LVStep m D d c) (.new h) (tr₁ ++ .vec (.startPass t) :: tr₂ ++ .vec (.endPass t acc) :: tr₃) s)
    (hone : .vec (.startPass t) ∉ tr₂)
    (hok : ∀ v k x, .vec (.update v k x) ∈ tr₁ ++ tr₂ → (HistCall.value x).isNaN = false)
    (hfit : ∀ p k us, p <+: vecEvents tr₂ → mapOf (vecEvents tr₁ ++ .startPass t :: p) k = some us →
      (sumUp HistCall.apply [] us).length < 2 ^ 63) :
    ∃ st out, passEncode (textEncoder m' ryu) n .histogram visit (.histogram les) (histOps les) (shownBy t tr₂)
        (TextEnc.new []) = (.ok (), ⟨st, out⟩) ∧
      PassShows rf n.text .histogram visit (shownHistogram les) (GroupWas t tr₁ tr₂ [] HistCall.apply)
        (GroupThere t tr₁ tr₂) out := by
  have hF : Follows (histOps les) (fun x : HistCall => (HistCall.value x).isNaN = false) (histConc les) []
      HistCall.apply :=
    ⟨(hist_follows les).zero, fun c a _ => (hist_follows les).shared c a trivial,
      fun c a _ => (hist_follows les).exclusive c a trivial⟩
  exact lv_pass_text hF L hl hf hc hh he hone hok F m' n hn visit hv .histogram (.histogram les) (shownHistogram les)
    (fun _ => rfl) fun p k us ls hp hm hx => histConc_shown hle hnan (sumUp_noNaN hx) (hfit p k us hp hm) n.text ls

end kinds

/-! ## No series twice -/

section series
variable {K A : Type} {rf : Bytes → Option F64}

theorem nodup_live {K A : Type} {l : List (K × A)} (h1 : (l.map Prod.fst).Nodup) : ∃ live, Enumerates l live := by
  classical
  refine ⟨fun k => (l.find? fun q => decide (q.1 = k)).map Prod.snd, h1, fun k a => ?_⟩
  beta_reduce
  induction l with
  | nil => simp
  | cons q l ih =>
    rw [List.map_cons, List.nodup_cons] at h1
    by_cases hq : q.1 = k
    · rw [List.find?_cons_of_pos (by simpa using hq)]
      constructor
      · intro hm
        rcases List.mem_cons.1 hm with rfl | hm
        · rfl
        · exact absurd (List.mem_map.2 ⟨_, hm, hq.symm⟩) h1.1
      · intro e
        simp only [Option.map_some, Option.some.injEq] at e
        rw [← hq, ← e]
        exact List.mem_cons_self ..
    · rw [List.find?_cons_of_neg (by simpa using hq), ← ih h1.2, List.mem_cons, or_iff_right]
      rintro rfl
      exact hq rfl

/-- What a pass shows are the entries of some map. -/
theorem passShows_live {n : Bytes} {kind : Kind} {labels : K → Labels} {shown : Bytes → Labels → A → List Expected}
    {was : K → A → Prop} {there : K → Prop} {text : Bytes} (h : PassShows rf n kind labels shown was there text) :
    ∃ live, ScrapeShows rf n kind labels shown live text := by
  obtain ⟨l, ss, h1, h2, h3, h4, h5⟩ := h
  obtain ⟨live, hl⟩ := nodup_live h1
  exact ⟨live, l, ss, hl, h4, h5⟩

/-- C75, no series twice. In a pass over a vector of counters or gauges in use that shows what the theorems above say (or
those of C68), no series comes twice, if different groups have different labels (C56 says when). -/
theorem C75_series (R : ReadsSpecial rf) {n : Bytes} {kind : Kind} {visit : K → Labels} (val : A → Val)
    {was : K → A → Prop} {there : K → Prop} {text : Bytes} {names : List Bytes}
    (hs : PassShows rf n kind visit (fun n ls a => [⟨n, ls, val a⟩]) was there text) (hl : VisitApart visit names) :
    ∃ f, readFamilies rf text = some [f] ∧ SeriesDistinct f.samples := by
  obtain ⟨live, h⟩ := passShows_live hs
  exact C56_vector R val h (hl.live live)

/-- C75, no series of a histogram twice: the bounds must be ascending, without `+Inf` among them, and no label may be
named `le` (C56 has the counterexamples). -/
theorem C75_series_histogram (R : ReadsSpecial rf) {n : Bytes} {visit : K → Labels} (les : List F64)
    (hle : StrictlyIncreasing les) (hinf : F64.inf false ∉ les) {was : K → List F64 → Prop} {there : K → Prop}
    {text : Bytes} {names : List Bytes} (hs : PassShows rf n .histogram visit (shownHistogram les) was there text)
    (hl : VisitApart visit names) (hnl : b!"le" ∉ names) :
    ∃ f, readFamilies rf text = some [f] ∧ SeriesDistinct f.samples := by
  obtain ⟨live, h⟩ := passShows_live hs
  exact C56_histogram_partial R les hle hinf h (hl.live live) hnl

end series

/-! ## A run -/

namespace LVExample
variable {U : Type} (x y : U)

/-- One shard. -/
def one : ShardConf (Nat × List Nat) := ⟨fun _ => 0, 1⟩

def key : Nat × List Nat := (0, [1])
def group : Fin 3 → String := ![ "Get", "/b", "ok" ]

/-- Only threads 0 and 1 do anything. -/
def Two (s : SSys (Nat × List Nat) U) : Prop := ∀ u : Nat, 2 ≤ u → s.thr u = ⟨.idle, []⟩

theorem Two.update {s s' : SSys (Nat × List Nat) U} (h : Two s) {t : Nat} (ht : t < 2) {q : SThread (Nat × List Nat) U}
    (hs : s'.thr = Function.update s.thr t q) : Two s' := by
  intro u hu
  rw [hs, Function.update_of_ne (fun he : u = t => by omega)]
  exact h u hu

theorem Two.canRead {s : SSys (Nat × List Nat) U} (h : Two s) {i : Nat} (h0 : (s.thr 0).pc.writeLock one = none)
    (h1 : (s.thr 1).pc.writeLock one = none) : s.CanRead one i := by
  intro (u : Nat) (hu : (s.thr u).pc.writeLock one = some i)
  by_cases hu0 : u = 0
  · subst hu0; rw [h0] at hu; cases hu
  by_cases hu1 : u = 1
  · subst hu1; rw [h1] at hu; cases hu
  rw [h u (by omega)] at hu
  cases hu

theorem Two.canWrite {s : SSys (Nat × List Nat) U} (h : Two s) {i : Nat} (h0 : (s.thr 0).pc.writeLock one = none)
    (h1 : (s.thr 1).pc.writeLock one = none) (h0' : (s.thr 0).pc.readLock one = none)
    (h1' : (s.thr 1).pc.readLock one = none) (g0 : (s.thr 0).guards = []) (g1 : (s.thr 1).guards = []) :
    s.CanWrite one i := by
  intro (u : Nat)
  refine ⟨h.canRead h0 h1 u, ?_⟩
  rintro (hu | ⟨k, hk, -⟩)
  · by_cases hu0 : u = 0
    · subst hu0; rw [h0'] at hu; cases hu
    by_cases hu1 : u = 1
    · subst hu1; rw [h1'] at hu; cases hu
    rw [h u (by omega)] at hu
    cases hu
  · by_cases hu0 : u = 0
    · subst hu0; rw [g0] at hk; cases hk
    by_cases hu1 : u = 1
    · subst hu1; rw [g1] at hk; cases hk
    rw [h u (by omega)] at hk
    cases hk

def before : List (LVEvent String U 3) :=
  [.lab (.tau 0), .lab (.tau 0), .lab (.encoded 0 group (some key)), .vec (.startGet 0 key), .vec (.lockR 0 0),
    .vec (.silent 0), .vec (.silent 0), .vec (.lockW 0 0), .vec (.insert 0 key), .vec (.silent 0),
    .vec (.acquired 0 key), .vec (.update 0 key x)]

def during : List (LVEvent String U 3) :=
  [.vec (.lockR 1 0), .lab (.tau 1), .vec (.update 0 key y), .lab (.tau 1), .lab (.decoded 1 key group),
    .shown 1 key group [x, y], .vec (.silent 1)]

theorem ex_cons {σ ε : Type} {step : σ → ε → σ → Prop} {s m : σ} {e : ε} {tr : List ε} (h : step s e m)
    (t : ∃ s', Exec step m tr s') : ∃ s', Exec step s (e :: tr) s' := by
  obtain ⟨s', t⟩ := t
  exact ⟨s', exec_cons h t⟩

/-- The map after the run below. -/
def done : SSys (Nat × List Nat) U :=
  ⟨fun i => if i = 0 then [(key, [x, y])] else [], fun t => if t = 0 then ⟨.idle, [key]⟩ else ⟨.idle, []⟩⟩

/-- Thread 0 encodes a group with a word that is new to the interner and uses its metric, while thread 1 collects. The run
may go on with `tail`. -/
theorem run_more (tail : List (LVEvent String U 3))
    (ht : ∀ l seen, l.ids = [key] → l.heap 0 = ⟨["/a", "/b"], 10⟩ → l.pc 1 = .idle →
      ∃ s', Exec (LVStep .debug threadedRodeo exampleDef one) ⟨l, done x y, seen⟩ tail s') :
    ∃ s, Exec (LVStep .debug threadedRodeo exampleDef one) (.new exampleHeap)
      (before x ++ .vec (.startPass 1) :: during x y ++ .vec (.endPass 1 [(key, [x, y])]) :: tail) s := by
  let l0 : LabelSys (Rodeo String) String 3 := .start exampleHeap
  let l1 := l0.goto 0 (.encoding group 0 [] exampleDef.dynamics)
  let l2 := { l1 with heap := l1.heap.set 0 ⟨["/a", "/b"], 10⟩ }.goto 0 (.encoding group 0 [1] [])
  let l3 := { l2 with ids := key :: l2.ids }.goto 0 .idle
  let s0 : SSys (Nat × List Nat) U := SSys.new
  let s1 := s0.goto 0 (.getRead key)
  let s2 := s1.goto 0 (.probe key)
  let s3 := s2.goto 0 (.missed key)
  let s4 := s3.goto 0 (.getWrite key)
  let s5 := s4.goto 0 (.insert key)
  let s6 := (s5.setShard 0 [(key, [])]).goto 0 (.inserted key)
  let s7 := s6.goto 0 (.refind key)
  let s8 := s7.setGuards 0 .idle [key]
  let s9 := s8.setShard 0 [(key, [x])]
  let a0 := s9.goto 1 (.collect 0 [])
  let a1 := a0.goto 1 (.scan 0 0 [] [(key, [x])])
  let a2 := a1.setShard 0 [(key, [x, y])]
  let a3 := a2.goto 1 (.scan 0 1 [(key, [x, y])] [(key, [x])])
  let a4 := a3.goto 1 (.collect 1 [(key, [x, y])])
  let L : LabelSys (Rodeo String) String 3 → SSys (Nat × List Nat) U → LVSys (Rodeo String) String U 3 :=
    fun l v => ⟨l, v, fun _ => none⟩
  have w0 : Two s0 := fun _ _ => rfl
  have w1 : Two s1 := w0.update (t := 0) (by decide) rfl
  have w2 : Two s2 := w1.update (t := 0) (by decide) rfl
  have w3 : Two s3 := w2.update (t := 0) (by decide) rfl
  have w4 : Two s4 := w3.update (t := 0) (by decide) rfl
  have w5 : Two s5 := w4.update (t := 0) (by decide) rfl
  have w6 : Two s6 := w5.update (t := 0) (by decide) rfl
  have w7 : Two s7 := w6.update (t := 0) (by decide) rfl
  have w8 : Two s8 := w7.update (t := 0) (by decide) rfl
  have v0 : Two a0 := w8.update (t := 1) (by decide) rfl
  have hk : key ∈ l3.ids := List.mem_cons_self ..
  refine ex_cons (m := L l1 s0) (.lab (LabelStep.encodeStart (m := .debug) (D := threadedRodeo)
    (d := exampleDef) (t := 0) (g := group) (index := 0) rfl (by decide))) ?_
  refine ex_cons (m := L l2 s0) (.lab (LabelStep.intern (m := .debug) (D := threadedRodeo) (d := exampleDef) (s := l1) (t := 0)
    (g := group) (index := 0) (ks := []) (r := 0) (i := (1 : Fin 3)) (rest := []) (k := 1)
    (x := ⟨["/a", "/b"], 10⟩) rfl rfl)) ?_
  refine ex_cons (m := L l3 s0) (.lab (LabelStep.encodeEnd (m := .debug) (D := threadedRodeo) (d := exampleDef) rfl)) ?_
  refine ex_cons (m := L l3 s1) (.vec (.startGet s0 0 key rfl) hk) ?_
  refine ex_cons (m := L l3 s2) (.vec (.lockRead s1 0 key rfl (w1.canRead rfl rfl)) trivial) ?_
  refine ex_cons (m := L l3 s3) (.vec (.miss s2 0 key rfl rfl) trivial) ?_
  refine ex_cons (m := L l3 s4) (.vec (.missRelease s3 0 key rfl) trivial) ?_
  refine ex_cons (m := L l3 s5) (.vec (.lockWrite s4 0 key rfl (w4.canWrite rfl rfl rfl rfl rfl rfl)) trivial) ?_
  refine ex_cons (m := L l3 s6) (.vec (.insertNew s5 0 key [(key, [])] rfl rfl (List.Perm.refl _)) trivial) ?_
  refine ex_cons (m := L l3 s7) (.vec (.downgrade s6 0 key rfl) trivial) ?_
  refine ex_cons (m := L l3 s8) (.vec (.refind s7 0 key [] rfl rfl) trivial) ?_
  refine ex_cons (m := L l3 s9) (.vec (.update s8 0 key x [] (List.mem_cons_self ..) rfl) trivial) ?_
  refine ex_cons (m := L l3 a0) (.vec (.startPass s9 1 rfl) trivial) ?_
  refine ex_cons (m := L l3 a1) (.vec (.passLock a0 1 0 [] rfl (by decide) (v0.canRead rfl rfl)) trivial) ?_
  refine ex_cons (.lab (LabelStep.decodeStart (m := .debug) (D := threadedRodeo) (d := exampleDef) (t := 1)
    (u := key) (index := 0) rfl hk rfl (by decide))) ?_
  refine ex_cons (.vec (.update a1 0 key y [x] (List.mem_cons_self ..) rfl) trivial) ?_
  refine ex_cons (.lab (LabelStep.resolve (m := .debug) (D := threadedRodeo) (d := exampleDef)
    (v := "/b") rfl rfl)) ?_
  refine ex_cons (.lab (LabelStep.decodeEnd (m := .debug) (D := threadedRodeo) (d := exampleDef)
    (g := group) rfl ?_)) ?_
  · refine Eq.trans (congrArg buildGroup ?_) (buildGroup_some _)
    refine funext (show ∀ j : Fin 3, _ from fun j => ?_)
    match j with
    | 0 => rfl
    | 1 => rfl
    | 2 => rfl
  refine ex_cons (.shown (.emit a2 1 0 0 [] [(key, [x])] key [x] [x, y] [x, y] rfl rfl rfl ⟨_, rfl⟩ ⟨[], rfl⟩) rfl) ?_
  refine ex_cons (.vec (.passNext a3 1 0 1 _ _ rfl (Nat.le_refl 1)) trivial) ?_
  have e : a4.goto 1 .idle = done x y := by
    have e1 : (a4.goto 1 .idle).shards = (done x y).shards := by
      funext i
      by_cases hi : i = 0
      · subst hi; rfl
      · have hne : ∀ (s : SSys (Nat × List Nat) U) l, (s.setShard 0 l).shards i = s.shards i := fun s l =>
          Function.update_of_ne hi _ _
        show a2.shards i = _
        rw [hne]
        show s9.shards i = _
        rw [hne]
        show (s5.setShard 0 [(key, [])]).shards i = _
        rw [hne]
        simp only [done, hi, if_false]
        rfl
    have e2 : (a4.goto 1 .idle).thr = (done x y).thr := by
      refine funext (show ∀ u : Nat, _ from fun u => ?_)
      by_cases hu0 : u = 0
      · subst hu0; rfl
      by_cases hu1 : u = 1
      · subst hu1; rfl
      have w9 : Two (a4.goto 1 .idle) := fun v hv => by
        have n0 : (v : Nat) ≠ 0 := by omega
        have n1 : (v : Nat) ≠ 1 := by omega
        show Function.update (Function.update (Function.update (Function.update (Function.update s8.thr 1 _) 1 _) 1 _) 1 _) 1 _ v = _
        simp only [Function.update_of_ne n1]
        exact w8 v hv
      rw [w9 u (by omega)]
      simp only [done, hu0, if_false]
    cases h4 : a4.goto 1 .idle
    rw [h4] at e1 e2
    cases h5 : done x y
    rw [h5] at e1 e2
    simp only at e1 e2
    rw [e1, e2]
  refine ex_cons (.vec (.endPass a4 1 1 _ rfl (by decide)) trivial) ?_
  rw [e]
  exact ht _ _ rfl rfl rfl

theorem run : ∃ s, Exec (LVStep .debug threadedRodeo exampleDef one) (.new exampleHeap)
    (before x ++ .vec (.startPass 1) :: during x y ++ .vec (.endPass 1 [(key, [x, y])]) :: []) s :=
  run_more x y [] fun _ _ _ _ _ => ⟨_, .nil⟩

/-- What thread 1 does when it collects again, later. -/
def again (z : U) : List (LVEvent String U 3) :=
  [.vec (.lockR 1 0), .lab (.tau 1), .lab (.tau 1), .lab (.decoded 1 key group), .shown 1 key group [x, y, z],
    .vec (.silent 1)]

/-- Thread 0 goes on using the metric, and thread 1 collects again. -/
theorem run_twice (z : U) : ∃ s, Exec (LVStep .debug threadedRodeo exampleDef one) (.new exampleHeap)
    (before x ++ .vec (.startPass 1) :: during x y ++ .vec (.endPass 1 [(key, [x, y])]) :: [.vec (.update 0 key z)] ++
      .vec (.startPass 1) :: again x y z ++ .vec (.endPass 1 [(key, [x, y, z])]) :: []) s := by
  have := run_more x y (.vec (.update 0 key z) :: .vec (.startPass 1) :: again x y z ++
    [.vec (.endPass 1 [(key, [x, y, z])])]) fun l seen hids hheap hpc => by
    let b0 := (done x y).setShard 0 [(key, [x, y, z])]
    let b1 := b0.goto 1 (.collect 0 [])
    let b2 := b1.goto 1 (.scan 0 0 [] [(key, [x, y, z])])
    let b3 := b2.goto 1 (.scan 0 1 [(key, [x, y, z])] [(key, [x, y, z])])
    let b4 := b3.goto 1 (.collect 1 [(key, [x, y, z])])
    have w1 : Two b1 := Two.update (s := b0) (t := 1) (fun u hu => by
      have : (u : Nat) ≠ 0 := by omega
      show (if u = 0 then _ else _) = _
      rw [if_neg this]) (by decide) rfl
    refine ex_cons (.vec (.update (done x y) 0 key z [x, y] (List.mem_cons_self ..) rfl) trivial) ?_
    refine ex_cons (.vec (.startPass b0 1 rfl) trivial) ?_
    refine ex_cons (.vec (.passLock b1 1 0 [] rfl (by decide) (w1.canRead rfl rfl)) trivial) ?_
    refine ex_cons (.lab (LabelStep.decodeStart (m := .debug) (D := threadedRodeo) (d := exampleDef) (t := 1)
      (u := key) (index := 0) hpc (by rw [hids]; exact List.mem_cons_self ..) rfl (by decide))) ?_
    refine ex_cons (.lab (LabelStep.resolve (m := .debug) (D := threadedRodeo) (d := exampleDef)
      (v := "/b") rfl (by show threadedRodeo.decode (l.heap 0) 1 = _; rw [hheap]; rfl))) ?_
    refine ex_cons (.lab (LabelStep.decodeEnd (m := .debug) (D := threadedRodeo) (d := exampleDef)
      (g := group) rfl ?_)) ?_
    · refine Eq.trans (congrArg buildGroup ?_) (buildGroup_some _)
      refine funext (show ∀ j : Fin 3, _ from fun j => ?_)
      match j with
      | 0 => rfl
      | 1 => rfl
      | 2 => rfl
    refine ex_cons (.shown (.emit b2 1 0 0 [] [(key, [x, y, z])] key [x, y, z] [x, y, z] [x, y, z] rfl rfl rfl ⟨[], rfl⟩
      ⟨[], rfl⟩) rfl) ?_
    refine ex_cons (.vec (.passNext b3 1 0 1 _ _ rfl (Nat.le_refl 1)) trivial) ?_
    exact ex_cons (.vec (.endPass b4 1 1 _ rfl (by decide)) trivial) ⟨_, .nil⟩
  exact this

/-- The labels of a group. -/
def text (v : String) : LVal := .str v.toByteArray.data.toList

theorem text_differ (x y : String) (h : x ≠ y) : LVal.Differ (text x) (text y) := by
  show x.toByteArray.data.toList ≠ y.toByteArray.data.toList
  intro e
  apply h
  rw [← String.toByteArray_inj]
  exact ByteArray.ext (Array.ext' e)

def names : List Bytes := [b!"method", b!"path", b!"status"]

theorem apart : VisitApart (derivedLabels exampleDef text) names :=
  C56_derived exampleDef text (by decide) text_differ

theorem visit_ok (g : exampleDef.Group) : ∀ l ∈ derivedLabels exampleDef text g, LabelNameRe l.1 := by
  intro l hl
  have : l.1 ∈ names := by rw [← apart.same g]; exact List.mem_map_of_mem hl
  simp only [names, List.mem_cons, List.not_mem_nil, or_false] at this
  rcases this with h | h | h <;> rw [h] <;> exact (C39_label_name _).1.1 rfl

theorem during_keys (p : List (SEvent (Nat × List Nat) U)) (hp : p <+: vecEvents (during x y)) (k : Nat × List Nat)
    (us : List U) (h : mapOf (vecEvents (before x) ++ .startPass 1 :: p) k = some us) : us = [x] ∨ us = [x, y] := by
  have hb : mapOf (vecEvents (before x) ++ [.startPass 1]) = fun k => if k = key then some [x] else none := by
    funext k
    simp only [before, vecEvents, mapOf, List.cons_append, List.nil_append, List.foldl_cons, List.foldl_nil, mapAfter]
    split <;> rfl
  have : vecEvents (before x) ++ SEvent.startPass 1 :: p = (vecEvents (before x) ++ [.startPass 1]) ++ p := by simp
  rw [this, mapOf, List.foldl_append, ← mapOf, hb] at h
  have hlist : p ∈ (vecEvents (during x y)).inits := (List.mem_inits _ _).2 hp
  simp only [during, vecEvents, List.inits, List.mem_cons, List.map_cons, List.map_nil, List.not_mem_nil,
    or_false] at hlist
  rcases hlist with rfl | rfl | rfl | rfl | rfl <;>
    (simp only [List.foldl_cons, List.foldl_nil, mapAfter] at h
     by_cases hk : k = key
     · simp only [hk, if_true, Option.map_some, Option.some.injEq, List.cons_append, List.nil_append] at h
       subst h
       first | exact .inl rfl | exact .inr rfl
     · simp [hk] at h)

/-- The group is there all the time. -/
theorem there : GroupThere 1 (before x) (during x y) group := by
  refine ⟨key, ⟨0, by simp [before]⟩, fun p hp => ?_⟩
  have hlist : p ∈ (vecEvents (during x y)).inits := (List.mem_inits _ _).2 hp
  simp only [during, vecEvents, List.inits, List.mem_cons, List.map_cons, List.map_nil, List.not_mem_nil,
    or_false] at hlist
  rcases hlist with rfl | rfl | rfl | rfl | rfl <;>
    simp [before, vecEvents, mapOf, mapAfter]

theorem no_start : .vec (.startPass 1) ∉ during x y := by simp [during]

theorem all_updates {v : Tid} {k : Nat × List Nat} {u : U} (h : .vec (.update v k u) ∈ before x ++ during x y) :
    u = x ∨ u = y := by
  simp only [before, during, List.cons_append, List.nil_append, List.mem_cons, reduceCtorEq, SEvent.update.injEq,
    LVEvent.vec.injEq, false_or, or_false, List.not_mem_nil] at h
  exact h.imp (·.2.2) (·.2.2)

theorem heap_ok : HeapInv (fun s : Rodeo String => s.items.Nodup) exampleHeap :=
  fun _ => by show List.Nodup ["/a"]; decide

theorem fits : Spec.Fits exampleDef := fits_of_pos (by decide) (by decide)

section
variable {ryu : F64 → Bytes} {rf : Bytes → Option F64} (F : FloatText ryu rf) (R : ReadsSpecial rf) (m : Mode)
include F R

example : ∃ st out f, passEncode (textEncoder m ryu) (.str b!"hits") .counter (derivedLabels exampleDef text) .counter
      (counterOps m) (shownBy 1 (during (CounterCall.incBy 5) .inc)) (TextEnc.new []) = (.ok (), ⟨st, out⟩) ∧
    PassShows rf b!"hits" .counter (derivedLabels exampleDef text) shownCounter
      (GroupWas 1 (before (CounterCall.incBy 5)) (during (CounterCall.incBy 5) .inc) 0 CounterCall.apply)
      (GroupThere 1 (before (CounterCall.incBy 5)) (during (CounterCall.incBy 5) .inc)) out ∧
    GroupThere 1 (before (CounterCall.incBy 5)) (during (CounterCall.incBy 5) .inc) group ∧
    readFamilies rf out = some [f] ∧ SeriesDistinct f.samples := by
  obtain ⟨s, h⟩ := run (CounterCall.incBy 5) .inc
  obtain ⟨st, out, e1, e2⟩ := C75_counter .debug threadedRodeo_laws exampleDef exampleDef_lawful fits (fun _ => Nat.zero_lt_one)
    exampleHeap heap_ok F m (.str b!"hits") ((C38_from_str _).1.1 (by decide)) _ visit_ok m h (no_start _ _)
    (by
      intro v k x hx
      rcases all_updates _ _ hx with rfl | rfl <;> (unfold CounterCall.Ok; decide))
    (by
      intro p k us hp hm
      rcases during_keys _ _ p hp k us hm with rfl | rfl <;> decide)
  obtain ⟨f, f1, f2⟩ := C75_series R _ e2 apart
  exact ⟨st, out, f, e1, e2, there _ _, f1, f2⟩

example : ∃ st out f, passEncode (textEncoder m ryu) (.str b!"temp") .gauge (derivedLabels exampleDef text) .gauge
      (gaugeOps m) (shownBy 1 (during (GaugeCall.set 5) .dec)) (TextEnc.new []) = (.ok (), ⟨st, out⟩) ∧
    PassShows rf b!"temp" .gauge (derivedLabels exampleDef text) shownGauge
      (GroupWas 1 (before (GaugeCall.set 5)) (during (GaugeCall.set 5) .dec) 0 GaugeCall.apply)
      (GroupThere 1 (before (GaugeCall.set 5)) (during (GaugeCall.set 5) .dec)) out ∧
    readFamilies rf out = some [f] ∧ SeriesDistinct f.samples := by
  obtain ⟨s, h⟩ := run (GaugeCall.set 5) .dec
  obtain ⟨st, out, e1, e2⟩ := C75_gauge .debug threadedRodeo_laws exampleDef exampleDef_lawful fits (fun _ => Nat.zero_lt_one)
    exampleHeap heap_ok F m (.str b!"temp") ((C38_from_str _).1.1 (by decide)) _ visit_ok m h (no_start _ _)
    (by
      intro v k x hx
      rcases all_updates _ _ hx with rfl | rfl
      · exact ⟨by decide, by decide⟩
      · trivial)
    (by
      intro p k us hp hm
      rcases during_keys _ _ p hp k us hm with rfl | rfl <;> exact ⟨by decide, by decide⟩)
  obtain ⟨f, f1, f2⟩ := C75_series R _ e2 apart
  exact ⟨st, out, f, e1, e2, f1, f2⟩

example : ∃ st out f, passEncode (textEncoder m ryu) (.str b!"temp") .floatGauge (derivedLabels exampleDef text)
      .floatGauge floatOps (shownBy 1 (during (FloatCall.set F64.one) .dec)) (TextEnc.new []) = (.ok (), ⟨st, out⟩) ∧
    PassShows rf b!"temp" .floatGauge (derivedLabels exampleDef text) shownFloat
      (GroupWas 1 (before (FloatCall.set F64.one)) (during (FloatCall.set F64.one) .dec) F64.pzero FloatCall.apply)
      (GroupThere 1 (before (FloatCall.set F64.one)) (during (FloatCall.set F64.one) .dec)) out ∧
    readFamilies rf out = some [f] ∧ SeriesDistinct f.samples := by
  obtain ⟨s, h⟩ := run (FloatCall.set F64.one) .dec
  obtain ⟨st, out, e1, e2⟩ := C75_float .debug threadedRodeo_laws exampleDef exampleDef_lawful fits (fun _ => Nat.zero_lt_one)
    exampleHeap heap_ok F m (.str b!"temp") ((C38_from_str _).1.1 (by decide)) _ visit_ok h (no_start _ _)
  obtain ⟨f, f1, f2⟩ := C75_series R _ e2 apart
  exact ⟨st, out, f, e1, e2, f1, f2⟩

example : ∃ st out f, passEncode (textEncoder m ryu) (.str b!"size") .histogram (derivedLabels exampleDef text)
      (.histogram [F64.one]) (histOps [F64.one])
      (shownBy 1 (during (HistCall.observe F64.one) (.observe F64.pzero))) (TextEnc.new []) = (.ok (), ⟨st, out⟩) ∧
    PassShows rf b!"size" .histogram (derivedLabels exampleDef text) (shownHistogram [F64.one])
      (GroupWas 1 (before (HistCall.observe F64.one)) (during (HistCall.observe F64.one) (.observe F64.pzero)) []
        HistCall.apply)
      (GroupThere 1 (before (HistCall.observe F64.one)) (during (HistCall.observe F64.one) (.observe F64.pzero))) out ∧
    readFamilies rf out = some [f] ∧ SeriesDistinct f.samples := by
  obtain ⟨s, h⟩ := run (HistCall.observe F64.one) (.observe F64.pzero)
  obtain ⟨st, out, e1, e2⟩ := C75_histogram .debug threadedRodeo_laws exampleDef exampleDef_lawful fits
    (fun _ => Nat.zero_lt_one) exampleHeap heap_ok F m (.str b!"size") ((C38_from_str _).1.1 (by decide)) _ visit_ok
    (les := [F64.one]) (by rw [Spec.NonDecreasing.iff_pairwise]; simp)
    (by intro b hb; rw [List.mem_singleton.1 hb]; decide +kernel) h (no_start _ _)
    (by
      intro v k x hx
      rcases all_updates _ _ hx with rfl | rfl <;> decide +kernel)
    (by
      intro p k us hp hm
      rcases during_keys _ _ p hp k us hm with rfl | rfl <;> decide +kernel)
  obtain ⟨f, f1, f2⟩ := C75_series_histogram R [F64.one] (fun i j x y hij _ hj => by
    obtain ⟨j, rfl⟩ := Nat.exists_eq_add_of_lt hij; cases hj) (by decide +kernel) e2 apart
    (by decide)
  exact ⟨st, out, f, e1, e2, f1, f2⟩

end

example (t : Tid) : .lab (.panic t) ∉ before (U := Nat) 5 ++ .vec (.startPass 1) :: during 5 6 ++
      .vec (.endPass 1 [(key, [5, 6])]) :: [] ∧
    .vec (.panic t) ∉ before (U := Nat) 5 ++ .vec (.startPass 1) :: during 5 6 ++
      .vec (.endPass 1 [(key, [5, 6])]) :: [] := by
  obtain ⟨s, h⟩ := run 5 6
  exact C75_no_panic .debug threadedRodeo_laws exampleDef exampleDef_lawful fits one exampleHeap heap_ok h t

example : ∃ s, Exec (LVStep .debug threadedRodeo exampleDef one) (.new exampleHeap)
    (before (U := Nat) 5 ++ .vec (.startPass 1) :: during 5 6 ++ .vec (.endPass 1 [(key, [5, 6])]) :: []) s ∧
    (key, [5, 6]) ∈ s.vec.shards 0 ∧ key ∈ s.lab.ids := by
  obtain ⟨s, h⟩ := run 5 6
  have hm : (key, [5, 6]) ∈ s.vec.shards 0 :=
    ((C23_contents (lv_project h).2.1).2 0 key [5, 6]).2 ⟨rfl, by decide⟩
  exact ⟨s, h, hm, (C75_keys .debug .release threadedRodeo_laws exampleDef exampleDef_lawful fits one exampleHeap heap_ok
    h hm).1⟩

end LVExample

end Measured.Conc
