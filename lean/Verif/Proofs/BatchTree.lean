import Verif.Proofs.Refine
import Verif.Proofs.OMap
import Verif.Jmt.Batch
/-! The pure counterpart of the batch update path. -/

namespace Verif.Jmt
variable {D : Type}
open VTree

/-- The entries whose nibble at `idx` is `i`. -/
def grp (kvs : List (Key × D)) (idx : Nat) (i : Nibble) : List (Key × D) := kvs.filter (fun e => decide (e.1.nibble idx = i))

theorem mem_grp {kvs : List (Key × D)} {idx : Nat} {i : Nibble} {e : Key × D} : e ∈ grp kvs idx i ↔ e ∈ kvs ∧ e.1.nibble idx = i := by
  simp [grp]

/-- Pairwise different keys below the path `p`. -/
structure Under (p : List Nibble) (kvs : List (Key × D)) : Prop where
  sorted : kvs.Pairwise (fun a b => a.1 < b.1)
  pre : ∀ e ∈ kvs, p <+: e.1.nibbles

theorem Key.nibbles_getElem? (k : Key) {i : Nat} (h : i < 64) : k.nibbles[i]? = some (k.nibble i) := by
  simp [Key.nibbles, h]

theorem prefix_snoc_iff {p : List Nibble} {k : Key} (hp : p.length < 64) (h : p <+: k.nibbles) (i : Nibble) :
    p ++ [i] <+: k.nibbles ↔ k.nibble p.length = i := by
  obtain ⟨r, hr⟩ := h
  have hg := Key.nibbles_getElem? k hp
  cases r with
  | nil =>
    have := congrArg List.length hr
    simp at this; omega
  | cons a r =>
    rw [← hr] at hg
    simp at hg
    rw [← hr, List.prefix_append_right_inj]
    simp [hg, eq_comm]

theorem Under.grp {p : List Nibble} {kvs : List (Key × D)} (h : Under p kvs) (hp : p.length < 64) (i : Nibble) :
    Under (p ++ [i]) (grp kvs p.length i) := by
  refine ⟨List.Pairwise.filter _ h.sorted, ?_⟩
  intro e he
  rw [mem_grp] at he
  exact (prefix_snoc_iff hp (h.pre e he.1) i).2 he.2

theorem Under.inj {p : List Nibble} {kvs : List (Key × D)} (h : Under p kvs) {a b : Key × D} (ha : a ∈ kvs) (hb : b ∈ kvs)
    (hk : a.1 = b.1) : a = b := by
  have := h.sorted
  clear h
  induction kvs with
  | nil => simp at ha
  | cons x l ih =>
    rw [List.pairwise_cons] at this
    rcases List.mem_cons.1 ha with rfl | ha'
    · rcases List.mem_cons.1 hb with rfl | hb'
      · rfl
      · have := this.1 b hb'; rw [hk] at this; exact absurd this (Key.lt_irrefl _)
    · rcases List.mem_cons.1 hb with rfl | hb'
      · have := this.1 a ha'; rw [hk] at this; exact absurd this (Key.lt_irrefl _)
      · exact ih ha' hb' this.2

theorem two_le_of_mem {α : Type} {l : List α} {a b : α} (ha : a ∈ l) (hb : b ∈ l) (h : a ≠ b) : 2 ≤ l.length := by
  match l with
  | [] => simp at ha
  | [x] =>
    simp only [List.mem_singleton] at ha hb
    exact absurd (ha.trans hb.symm) h
  | _ :: _ :: _ => simp

namespace VTree

/-- Pure version of `batch_create_subtree`. -/
def create (ver : Version) (m : Bool) : Nat → List (Key × D) → VTree D
  | _, [] => .empty
  | _, [(k, x)] => .leaf ver k x
  | 0, _ :: _ :: _ => .empty
  | h + 1, a :: b :: l => .node ver m (fun i => create ver m h (grp (a :: b :: l) (64 - (h + 1)) i))

/-- The entries with an existing one put in unless its key is among them. -/
def addLeaf (k : Key) (x : D) (kvs : List (Key × D)) : List (Key × D) :=
  if k ∈ kvs.map Prod.fst then kvs else kvs.filter (fun e => decide (e.1 < k)) ++ (k, x) :: kvs.filter (fun e => decide (k < e.1))

/-- Pure version of `batch_insert_at`. -/
def binsert (ver : Version) (m : Bool) : Nat → List (Key × D) → VTree D → VTree D
  | h, kvs, .empty => create ver m h kvs
  | h, kvs, .leaf _ k x => create ver m h (addLeaf k x kvs)
  | 0, _, .node v m' ch => .node v m' ch
  | h + 1, kvs, .node _ _ ch => .node ver m (fun i =>
      if grp kvs (64 - (h + 1)) i = [] then ch i else binsert ver m h (grp kvs (64 - (h + 1)) i) (ch i))

theorem create_two (ver : Version) (m : Bool) (h : Nat) {kvs : List (Key × D)} (hl : 2 ≤ kvs.length) :
    create ver m (h + 1) kvs = .node ver m (fun i => create ver m h (grp kvs (64 - (h + 1)) i)) := by
  match kvs, hl with
  | [], hl => simp at hl
  | [_], hl => simp at hl
  | a :: b :: l, _ => rfl

theorem nibble_height {p : List Nibble} {h : Nat} (hp : p.length + (h + 1) = 64) : 64 - (h + 1) = p.length := by omega

theorem create_spec (ver : Version) (m : Bool) (h : Nat) : ∀ (p : List Nibble) (kvs : List (Key × D)), Under p kvs →
    p.length + h = 64 → WF p (create ver m h kvs) ∧ ∀ e, e ∈ (create ver m h kvs).entries ↔ e ∈ kvs := by
  induction h with
  | zero =>
    intro p kvs hu hp
    match kvs, hu with
    | [], _ => simp [create, WF, entries]
    | [(k, x)], hu => simp only [create, WF, entries]; exact ⟨hu.pre (k, x) (by simp), by simp⟩
    | a :: b :: l, hu =>
      exfalso
      have h1 := (hu.pre a (by simp)).eq_of_length (by simp; omega)
      have h2 := (hu.pre b (by simp)).eq_of_length (by simp; omega)
      have := hu.sorted
      simp only [List.pairwise_cons, List.mem_cons, forall_eq_or_imp] at this
      have e : a.1 = b.1 := Key.nibbles_inj (h1.symm.trans h2)
      have := this.1.1
      rw [e] at this
      exact Key.lt_irrefl _ this
  | succ h ih =>
    intro p kvs hu hp
    match kvs, hu with
    | [], _ => simp [create, WF, entries]
    | [(k, x)], hu => simp only [create, WF, entries]; exact ⟨hu.pre (k, x) (by simp), by simp⟩
    | a :: b :: l, hu =>
      generalize hk : a :: b :: l = kvs at hu
      have hl : 2 ≤ kvs.length := by rw [← hk]; simp
      rw [create_two ver m h hl, nibble_height hp]
      have hc := fun i => ih (p ++ [i]) _ (hu.grp (by omega) i) (by simp; omega)
      have he : ∀ e, e ∈ (VTree.node ver m (fun i => create ver m h (grp kvs p.length i))).entries ↔ e ∈ kvs := by
        intro e
        rw [mem_entries_node]
        constructor
        · rintro ⟨i, hi⟩; exact (mem_grp.1 (((hc i).2 e).1 hi)).1
        · intro hi; exact ⟨_, ((hc _).2 e).2 (mem_grp.2 ⟨hi, rfl⟩)⟩
      refine ⟨⟨fun i => (hc i).1, ?_⟩, he⟩
      apply two_le_of_mem (a := a) (b := b)
      · rw [he, ← hk]; simp
      · rw [he, ← hk]; simp
      · rintro rfl
        have := hu.sorted
        rw [← hk] at this
        simp only [List.pairwise_cons, List.mem_cons, forall_eq_or_imp] at this
        exact Key.lt_irrefl _ this.1.1

theorem create_version (ver : Version) (m : Bool) (h : Nat) {p : List Nibble} {kvs : List (Key × D)} (hu : Under p kvs)
    (hp : p.length + h = 64) (hne : kvs ≠ []) : create ver m h kvs ≠ .empty ∧ (create ver m h kvs).version = ver := by
  have hs := create_spec ver m h p kvs hu hp
  have h1 : create ver m h kvs ≠ .empty := by
    intro h0
    obtain ⟨e, he⟩ := List.exists_mem_of_ne_nil _ hne
    have := (hs.2 e).2 he
    rw [h0] at this; simp [entries] at this
  refine ⟨h1, ?_⟩
  match h, kvs, h1 with
  | _, [], h1 => exact absurd rfl hne
  | 0, [(k, x)], _ => rfl
  | h + 1, [(k, x)], _ => rfl
  | 0, a :: b :: l, h1 => exact absurd rfl h1
  | h + 1, a :: b :: l, _ => rfl

theorem create_at (H : Hasher D) (ver : Version) (m : Bool) (h : Nat) : ∀ (kvs : List (Key × D)) {v : Version} {q : List Nibble} {n : Node D},
    (create ver m h kvs).at? H v q = some n → v = ver := by
  induction h with
  | zero =>
    intro kvs v q n hn
    match kvs, hn with
    | [], hn => simp [create] at hn
    | [(k, x)], hn =>
      rw [create, at?_leaf] at hn
      split at hn
      · rename_i hh; exact hh.1
      · cases hn
    | a :: b :: l, hn => simp [create] at hn
  | succ h ih =>
    intro kvs v q n hn
    match kvs, hn with
    | [], hn => simp [create] at hn
    | [(k, x)], hn =>
      rw [create, at?_leaf] at hn
      split at hn
      · rename_i hh; exact hh.1
      · cases hn
    | a :: b :: l, hn =>
      rw [create] at hn
      cases q with
      | nil =>
        rw [at?_node_nil] at hn
        split at hn
        · assumption
        · cases hn
      | cons i q =>
        rw [at?_node_cons] at hn
        exact ih _ hn

theorem verLe_create (ver : Version) (m : Bool) (h : Nat) : ∀ (kvs : List (Key × D)), VerLe ver (create ver m h kvs) := by
  induction h with
  | zero =>
    intro kvs
    match kvs with
    | [] => trivial
    | [(k, x)] => exact Nat.le_refl _
    | a :: b :: l => trivial
  | succ h ih =>
    intro kvs
    match kvs with
    | [] => trivial
    | [(k, x)] => exact Nat.le_refl _
    | a :: b :: l => exact ⟨Nat.le_refl _, fun i => ih _⟩

theorem mem_addLeaf {k : Key} {x : D} {kvs : List (Key × D)} {e : Key × D} :
    e ∈ addLeaf k x kvs ↔ e ∈ kvs ∨ (e.1 ∉ kvs.map Prod.fst ∧ e = (k, x)) := by
  unfold addLeaf
  split
  · rename_i hk
    constructor
    · exact .inl
    · rintro (h | ⟨h, rfl⟩)
      · exact h
      · exact absurd hk h
  · rename_i hk
    simp only [List.mem_append, List.mem_cons, List.mem_filter, decide_eq_true_eq]
    constructor
    · rintro (⟨h, _⟩ | rfl | ⟨h, _⟩)
      · exact .inl h
      · exact .inr ⟨hk, rfl⟩
      · exact .inl h
    · rintro (h | ⟨h, rfl⟩)
      · rcases Key.lt_tri e.1 k with h1 | h1 | h1
        · exact .inl ⟨h, h1⟩
        · exact absurd (List.mem_map.2 ⟨e, h, h1⟩) hk
        · exact .inr (.inr ⟨h, h1⟩)
      · exact .inr (.inl rfl)

theorem addLeaf_ne_nil (k : Key) (x : D) (kvs : List (Key × D)) : addLeaf k x kvs ≠ [] := by
  unfold addLeaf
  split
  · rename_i hk; rintro rfl; simp at hk
  · simp

theorem under_addLeaf {p : List Nibble} {k : Key} {x : D} {kvs : List (Key × D)} (hu : Under p kvs) (hk : p <+: k.nibbles) :
    Under p (addLeaf k x kvs) := by
  refine ⟨?_, ?_⟩
  · unfold addLeaf
    split
    · exact hu.sorted
    · rw [List.pairwise_append]
      refine ⟨hu.sorted.filter _, ?_, ?_⟩
      · rw [List.pairwise_cons]
        refine ⟨?_, hu.sorted.filter _⟩
        intro e he
        simpa using (List.mem_filter.1 he).2
      · intro a ha b hb
        have ha := (List.mem_filter.1 ha).2
        simp only [decide_eq_true_eq] at ha
        rcases List.mem_cons.1 hb with rfl | hb
        · exact ha
        · have hb := (List.mem_filter.1 hb).2
          simp only [decide_eq_true_eq] at hb
          exact Key.lt_trans ha hb
  · intro e he
    rcases mem_addLeaf.1 he with h | ⟨_, rfl⟩
    · exact hu.pre e h
    · exact hk

theorem binsert_spec (ver : Version) (m : Bool) (t : VTree D) : ∀ (p : List Nibble) (h : Nat) (kvs : List (Key × D)), Under p kvs →
    p.length + h = 64 → WF p t → WF p (binsert ver m h kvs t) ∧
      ∀ e, e ∈ (binsert ver m h kvs t).entries ↔ e ∈ kvs ∨ (e.1 ∉ kvs.map Prod.fst ∧ e ∈ t.entries) := by
  induction t with
  | empty =>
    intro p h kvs hu hp hw
    have := create_spec ver m h p kvs hu hp
    cases h <;> simpa [binsert, entries] using this
  | leaf v k x =>
    intro p h kvs hu hp hw
    have := create_spec ver m h p _ (under_addLeaf (x := x) hu hw) hp
    have e : binsert ver m h kvs (.leaf v k x) = create ver m h (addLeaf k x kvs) := by cases h <;> rfl
    rw [e]
    refine ⟨this.1, fun e => ?_⟩
    rw [this.2, mem_addLeaf]
    simp [entries]
  | node v m' ch ih =>
    intro p h kvs hu hp hw
    have hp64 := wf_node_length hw
    obtain ⟨h, rfl⟩ : ∃ h', h = h' + 1 := ⟨h - 1, by omega⟩
    have hc : ∀ i, WF (p ++ [i]) (if grp kvs (64 - (h + 1)) i = [] then ch i else binsert ver m h (grp kvs (64 - (h + 1)) i) (ch i)) ∧
        ∀ e, e ∈ (if grp kvs (64 - (h + 1)) i = [] then ch i else binsert ver m h (grp kvs (64 - (h + 1)) i) (ch i)).entries ↔
          e ∈ grp kvs (64 - (h + 1)) i ∨ (e.1 ∉ (grp kvs (64 - (h + 1)) i).map Prod.fst ∧ e ∈ (ch i).entries) := by
      intro i
      split
      · rename_i hg
        refine ⟨hw.1 i, fun e => ?_⟩
        rw [hg]; simp
      · rw [nibble_height hp]
        exact ih i (p ++ [i]) h _ (hu.grp hp64 i) (by simp; omega) (hw.1 i)
    have he : ∀ e, e ∈ (binsert ver m (h + 1) kvs (.node v m' ch)).entries ↔
        e ∈ kvs ∨ (e.1 ∉ kvs.map Prod.fst ∧ e ∈ (VTree.node v m' ch).entries) := by
      intro e
      rw [binsert, mem_entries_node, mem_entries_node]
      constructor
      · rintro ⟨i, hi⟩
        rw [(hc i).2] at hi
        rcases hi with hi | ⟨h1, h2⟩
        · exact .inl (mem_grp.1 hi).1
        · refine .inr ⟨?_, i, h2⟩
          intro hm
          apply h1
          rw [List.mem_map] at hm ⊢
          obtain ⟨a, ha, hae⟩ := hm
          refine ⟨a, mem_grp.2 ⟨ha, ?_⟩, hae⟩
          have hpe := mem_entries_prefix (k := e.1) (x := e.2) (hw.1 i) h2
          rw [hae, nibble_height hp]
          exact (prefix_snoc_iff hp64 ((List.prefix_append p [i]).trans hpe) i).1 hpe
      · rintro (h1 | ⟨h1, i, h2⟩)
        · exact ⟨_, ((hc _).2 e).2 (.inl (mem_grp.2 ⟨h1, rfl⟩))⟩
        · refine ⟨i, ((hc i).2 e).2 (.inr ⟨?_, h2⟩)⟩
          intro hm
          apply h1
          rw [List.mem_map] at hm ⊢
          obtain ⟨a, ha, hae⟩ := hm
          exact ⟨a, (mem_grp.1 ha).1, hae⟩
    refine ⟨⟨fun i => (hc i).1, ?_⟩, he⟩
    -- two keys survive
    have h2 := hw.2
    match hl : (VTree.node v m' ch).entries, h2 with
    | [], h2 => simp at h2
    | [_], h2 => simp at h2
    | a :: b :: l, _ =>
      have hnd := entries_nodup hw
      rw [hl] at hnd
      simp only [List.map_cons, List.nodup_cons, List.mem_cons, not_or] at hnd
      have key : ∀ a, a ∈ (VTree.node v m' ch).entries → ∃ a', a' ∈ (binsert ver m (h + 1) kvs (.node v m' ch)).entries ∧ a'.1 = a.1 := by
        intro a ha
        by_cases hm : a.1 ∈ kvs.map Prod.fst
        · rw [List.mem_map] at hm
          obtain ⟨a', ha', hae⟩ := hm
          exact ⟨a', (he a').2 (.inl ha'), hae⟩
        · exact ⟨a, (he a).2 (.inr ⟨hm, ha⟩), rfl⟩
      obtain ⟨a', ha', hae⟩ := key a (by rw [hl]; simp)
      obtain ⟨b', hb', hbe⟩ := key b (by rw [hl]; simp)
      apply two_le_of_mem ha' hb'
      rintro rfl
      exact hnd.1.1 (hae.symm.trans hbe)

theorem binsert_empty (ver : Version) (m : Bool) (h : Nat) (kvs : List (Key × D)) : binsert ver m h kvs .empty = create ver m h kvs := by
  cases h <;> rfl
theorem binsert_leaf (ver : Version) (m : Bool) (h : Nat) (kvs : List (Key × D)) (v : Version) (k : Key) (x : D) :
    binsert ver m h kvs (.leaf v k x) = create ver m h (addLeaf k x kvs) := by
  cases h <;> rfl

theorem binsert_version (ver : Version) (m : Bool) {t : VTree D} {p : List Nibble} {h : Nat} {kvs : List (Key × D)} (hu : Under p kvs)
    (hp : p.length + h = 64) (hw : WF p t) (hne : kvs ≠ []) :
    binsert ver m h kvs t ≠ .empty ∧ (binsert ver m h kvs t).version = ver := by
  cases t with
  | empty => rw [binsert_empty]; exact create_version ver m h hu hp hne
  | leaf v k x => rw [binsert_leaf]; exact create_version ver m h (under_addLeaf hu hw) hp (addLeaf_ne_nil k x kvs)
  | node v m' ch =>
    have hp64 := wf_node_length hw
    obtain ⟨h, rfl⟩ : ∃ h', h = h' + 1 := ⟨h - 1, by omega⟩
    simp [binsert]

theorem binsert_old {H : Hasher D} {ver : Version} {m : Bool} (t : VTree D) : ∀ (h : Nat) (kvs : List (Key × D)) {v : Version} {q : List Nibble} {n : Node D},
    v < ver → (binsert ver m h kvs t).at? H v q = some n → t.at? H v q = some n := by
  induction t with
  | empty =>
    intro h kvs v q n hv hn
    rw [binsert_empty] at hn
    have := create_at H ver m h _ hn; omega
  | leaf v' k x =>
    intro h kvs v q n hv hn
    rw [binsert_leaf] at hn
    have := create_at H ver m h _ hn; omega
  | node v' m' ch ih =>
    intro h kvs v q n hv hn
    cases h with
    | zero => exact hn
    | succ h =>
      rw [binsert] at hn
      cases q with
      | nil =>
        rw [at?_node_nil, if_neg (by omega)] at hn
        cases hn
      | cons i q =>
        rw [at?_node_cons] at hn ⊢
        split at hn
        · exact hn
        · exact ih i _ _ hv hn

theorem verLe_binsert {ver : Version} {m : Bool} (t : VTree D) : ∀ (h : Nat) (kvs : List (Key × D)), VerLe ver t →
    VerLe ver (binsert ver m h kvs t) := by
  induction t with
  | empty => intro h kvs _; rw [binsert_empty]; exact verLe_create ver m h kvs
  | leaf v' k x => intro h kvs _; rw [binsert_leaf]; exact verLe_create ver m h _
  | node v' m' ch ih =>
    intro h kvs hw
    cases h with
    | zero => exact hw
    | succ h =>
      refine ⟨Nat.le_refl _, fun i => ?_⟩
      dsimp only
      split
      · exact hw.2 i
      · exact ih i _ _ (hw.2 i)

end VTree
end Verif.Jmt
