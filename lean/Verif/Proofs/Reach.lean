import Mathlib.Data.List.Induction
import Verif.Spec.Reach
import Verif.Proofs.Reads
/-! Reachable node keys of a reached store. -/

namespace Verif.Jmt
variable {D : Type}
open VTree Verif.Spec

theorem child_version {H : Hasher D} {t : VTree D} {c : Child D} (h : t.child H = some c) : t ≠ .empty ∧ c.version = t.version := by
  cases t with
  | empty => simp [child] at h
  | leaf => simp only [child, Option.some.injEq] at h; subst h; exact ⟨by simp, rfl⟩
  | node => simp only [child, Option.some.injEq] at h; subst h; exact ⟨by simp, rfl⟩

theorem at?_child {H : Hasher D} {t : VTree D} {v : Version} {q : List Nibble} {n : InternalNode D} {i : Nibble} {c : Child D}
    (h : t.at? H v q = some (.internal n)) (hc : n.child i = some c) : (t.at? H c.version (q ++ [i])).isSome = true := by
  induction t generalizing q with
  | empty => simp at h
  | leaf => rw [at?_leaf] at h; split at h <;> cases h
  | node v' m ch ih =>
    cases q with
    | nil =>
      rw [at?_node_nil] at h
      split at h
      · simp only [toNode, Option.some.injEq, Node.internal.injEq] at h
        subst h
        have hc' : (ch i).child H = some c := hc
        obtain ⟨h1, h2⟩ := child_version hc'
        rw [List.nil_append, at?_node_cons, h2, at?_nil H h1, if_pos rfl]; rfl
      · cases h
    | cons j q => rw [at?_node_cons] at h; exact ih j h

theorem at?_parent {H : Hasher D} {t : VTree D} {v : Version} {q : List Nibble} {i : Nibble} {n : Node D}
    (h : t.at? H v (q ++ [i]) = some n) :
    ∃ v' n' c, t.at? H v' q = some (.internal n') ∧ n'.child i = some c ∧ c.version = v := by
  induction t generalizing q with
  | empty => simp at h
  | leaf => rw [at?_leaf] at h; simp at h
  | node v' m ch ih =>
    cases q with
    | nil =>
      rw [List.nil_append, at?_node_cons] at h
      have hne : ch i ≠ .empty := by intro he; rw [he] at h; simp at h
      rw [at?_nil H hne] at h
      split at h
      · rename_i hv
        obtain ⟨c, hc⟩ := Option.isSome_iff_exists.1 (child_isSome (H := H).2 hne)
        refine ⟨v', InternalNode.ofFun m (fun i => (ch i).child H), c, ?_, hc, ?_⟩
        · rw [at?_node_nil, if_pos rfl]; rfl
        · rw [(child_version hc).2, hv]
      · cases h
    | cons j q =>
      rw [List.cons_append, at?_node_cons] at h
      obtain ⟨v1, n', c, h1, h2⟩ := ih j h
      exact ⟨v1, n', c, by rw [at?_node_cons]; exact h1, h2⟩

theorem Inv.inTree {H : Hasher D} {N : NodeKey → Option (Node D)} {St : Version → NodeKey → Prop} {T : Version → VTree D}
    {v0 next lo w : Version} (h : Inv H N St T v0 next lo) (h0 : lo ≤ w) (h1 : w < next) (v : Version) (q : List Nibble) :
    InTree N w ⟨v, q⟩ ↔ (stored H w (T w) v q).isSome = true := by
  have hlo := h.loge
  have htr := h.tree w (by omega) h1
  have hN : ∀ v q n, stored H w (T w) v q = some n → N ⟨v, q⟩ = some n := h.nodes w h0 h1
  have hroot : ∃ n, stored H w (T w) w [] = some n := by
    by_cases he : T w = .empty
    · exact ⟨.null, by rw [he]; simp [stored]⟩
    · rw [stored_of_ne H he, at?_nil H he, htr.2.2 he, if_pos rfl]; exact ⟨_, rfl⟩
  constructor
  · intro hi
    generalize hk : (⟨v, q⟩ : NodeKey) = nk at hi
    induction hi generalizing v q with
    | root hn => cases hk; obtain ⟨n, hn⟩ := hroot; rw [hn]; rfl
    | @child nk n i c hi hn hc ih =>
      cases hk
      obtain ⟨vp, qp⟩ := nk
      have hs := ih vp qp rfl
      obtain ⟨n', hn'⟩ := Option.isSome_iff_exists.1 hs
      have := hN _ _ _ hn'
      rw [hn] at this
      cases this
      by_cases he : T w = .empty
      · rw [he] at hn'
        simp only [stored] at hn'
        split at hn' <;> cases hn'
      · rw [stored_of_ne H he] at hn' ⊢
        exact at?_child hn' hc
  · induction q using List.reverseRecOn generalizing v with
    | nil =>
      intro hs
      have hv : v = w := by
        by_cases he : T w = .empty
        · rw [he] at hs
          simp only [stored] at hs
          by_contra hc
          simp [hc] at hs
        · rw [stored_of_ne H he, at?_nil H he, htr.2.2 he] at hs
          by_contra hc
          simp [hc] at hs
      subst hv
      obtain ⟨n, hn⟩ := hroot
      exact .root (hN _ _ _ hn)
    | append_singleton q i ih =>
      intro hs
      obtain ⟨n, hn⟩ := Option.isSome_iff_exists.1 hs
      have he : T w ≠ .empty := by intro he; rw [he] at hn; simp [stored] at hn
      rw [stored_of_ne H he] at hn
      obtain ⟨v', n', c, h2, h3, h4⟩ := at?_parent hn
      have := ih v' (by rw [stored_of_ne H he, h2]; rfl)
      have hc := InTree.child this (hN v' q _ (by rw [stored_of_ne H he]; exact h2)) h3
      rw [h4] at hc
      exact hc

theorem StoreInv.get_eq {H : Hasher D} {v0 lo : Version} {hist : List Commit} {s s' : Store D} (h : StoreInv H v0 hist lo s)
    (h' : StoreInv H v0 hist lo s') (v : Version) (hv : lo ≤ v) (q : List Nibble) : s.nodes.get ⟨v, q⟩ = s'.nodes.get ⟨v, q⟩ := by
  have key : ∀ (a b : Store D), StoreInv H v0 hist lo a → StoreInv H v0 hist lo b → ∀ n, a.nodes.get ⟨v, q⟩ = some n →
      b.nodes.get ⟨v, q⟩ = some n := by
    intro a b ha hb n hn
    obtain ⟨h1, h2, h3⟩ := ha.inv.dom v q n hn
    exact hb.inv.nodes v hv h2 v q n h3
  cases ha : s.nodes.get ⟨v, q⟩ with
  | some n => exact (key _ _ h h' n ha).symm
  | none =>
    cases hb : s'.nodes.get ⟨v, q⟩ with
    | none => rfl
    | some n => rw [key _ _ h' h n hb] at ha; cases ha

theorem runOps_append (H : Hasher D) (l l' : List Op) (st st' : Store D × Version) (h : runOps H l st = .ok st') :
    runOps H (l ++ l') st = runOps H l' st' := by
  induction l generalizing st with
  | nil => simp only [runOps, Except.ok.injEq] at h; rw [h]; rfl
  | cons op l ih =>
    simp only [List.cons_append, runOps] at h ⊢
    cases ho : op.run H st with
    | error e => rw [ho] at h; cases h
    | ok s1 => rw [ho] at h; simp only [Res.ok_bind] at h ⊢; exact ih s1 h

theorem Reached.purge {H : Hasher D} {v0 next : Version} {ops : List Op} {s : Store D} (h : Reached H v0 ops s next) (m : Version) :
    ∃ s', s.purgeStaleNodes m = .ok s' ∧ Reached H v0 (ops ++ [.purge m]) s' next := by
  obtain ⟨rfl, hi⟩ := h.inv
  obtain ⟨s', e1, _⟩ := hi.purge m
  refine ⟨s', e1, ?_, ?_⟩
  · simpa [commitsOf, Op.commits] using h.startable
  · rw [runOps_append H ops [.purge m] _ _ h.run]
    simp only [runOps, Op.run, e1, Res.ok_bind]

theorem Reached.inTree {H : Hasher D} {v0 next : Version} {ops : List Op} {s : Store D} (h : Reached H v0 ops s next) {w : Version}
    (hw : Readable v0 ops w) (v : Version) (q : List Nibble) : InTree s.nodes.get w ⟨v, q⟩ ↔
      (stored H w (treeAt H v0 (commitsOf ops) w) v q).isSome = true := by
  obtain ⟨rfl, hi⟩ := h.inv
  refine hi.inv.inTree ?_ hw.lt v q
  rcases hw.kept with hk | hk
  · exact floorOf_le ops v0 v0 w hw.ge hk
  · have := hi.inv.loLt
    have := hw.ge
    omega

theorem Reached.nodes {H : Hasher D} {v0 next : Version} {ops : List Op} {s : Store D} (h : Reached H v0 ops s next) {w : Version}
    (hw : Readable v0 ops w) (v : Version) (q : List Nibble) (n : Node D) (hn : stored H w (treeAt H v0 (commitsOf ops) w) v q = some n) :
    s.nodes.get ⟨v, q⟩ = some n := by
  obtain ⟨rfl, hi⟩ := h.inv
  refine hi.inv.nodes w ?_ hw.lt v q n hn
  rcases hw.kept with hk | hk
  · exact floorOf_le ops v0 v0 w hw.ge hk
  · have := hi.inv.loLt
    have := hw.ge
    omega

end Verif.Jmt
