import Verif.Proofs.Values
/-! A key written by a commit has its leaf at the version of that commit. -/

set_option autoImplicit false

namespace Verif.Jmt
variable {D : Type}
open VTree Verif.Spec

namespace VTree

/-- Every leaf of key `k` has version `ver`. -/
def KeyAt (ver : Version) (k : Key) : VTree D → Prop
  | .empty => True
  | .leaf v k' _ => k' = k → v = ver
  | .node _ _ ch => ∀ i, KeyAt ver k (ch i)

theorem keyAt_iff (H : Hasher D) {ver : Version} {k : Key} {t : VTree D} :
    KeyAt ver k t ↔ ∀ v q l, t.at? H v q = some (.leaf l) → l.keyHash = k → v = ver := by
  induction t with
  | empty => simp [KeyAt]
  | leaf v k' h =>
    simp only [KeyAt, at?_leaf]
    constructor
    · intro hh v' q l hl hk
      split at hl
      · rename_i hc
        cases hl
        rw [hc.1]; exact hh hk
      · cases hl
    · intro hh hk
      exact hh v [] ⟨k', h⟩ (by simp) hk
  | node v m ch ih =>
    simp only [KeyAt]
    constructor
    · intro hh v' q l hl hk
      cases q with
      | nil => rw [at?_node_nil] at hl; split at hl <;> simp [toNode] at hl
      | cons i q => rw [at?_node_cons] at hl; exact (ih i).1 (hh i) v' q l hl hk
    · intro hh i
      refine (ih i).2 ?_
      intro v' q l hl hk
      exact hh v' (i :: q) l (by rw [at?_node_cons]; exact hl) hk

theorem keyAt_of_not_mem {ver : Version} {k : Key} {t : VTree D} (h : ∀ x, (k, x) ∉ t.entries) : KeyAt ver k t := by
  induction t with
  | empty => trivial
  | leaf v k' x =>
    intro hk; exact absurd (by simp [entries, hk]) (h x)
  | node v m ch ih =>
    intro i
    apply ih i
    intro x hx
    exact h x (by simp only [entries, List.mem_flatMap]; exact ⟨i, by simp, hx⟩)

theorem keyAt_fork (ver : Version) (m : Bool) (k' : Key) (h' : D) (k : Key) (h : D) (k0 : Key) (r' r : List Nibble) :
    KeyAt ver k0 (fork ver m k' h' k h r' r) := by
  induction r' generalizing r with
  | nil => cases r <;> exact trivial
  | cons a as ih =>
    cases r with
    | nil => exact trivial
    | cons b bs =>
      unfold fork
      split
      · intro i
        unfold upd
        split
        · exact ih bs
        · exact trivial
      · intro i
        unfold upd
        split
        · exact fun _ => rfl
        · split
          · exact fun _ => rfl
          · exact trivial

theorem keyAt_finish {ver : Version} {k : Key} {ch : Nibble → VTree D} {t : VTree D} (hc : ∀ i, KeyAt ver k (ch i)) :
    KeyAt ver k (after t (finish ver ch)) := by
  rcases finish_cases ver ch with ⟨h1, _⟩ | ⟨i, v', k', x, _, _, h1⟩ | h1
  · rw [h1]; exact trivial
  · rw [h1]; exact fun _ => rfl
  · rw [h1]; exact hc

theorem put_keyAt {ver : Version} {m : Bool} {k : Key} {x : Option D} (t : VTree D) (p rest : List Nibble)
    (hk : k.nibbles = p ++ rest) (hw : WF p t) : KeyAt ver k (after t (put ver m k x rest t)) := by
  induction t generalizing p rest with
  | empty => cases x <;> simp [put, after, KeyAt]
  | leaf v' k' h' =>
    unfold put
    split
    · cases x <;> simp [after, KeyAt]
    · rename_i hne
      cases x with
      | none => simp [after, KeyAt, hne]
      | some y => exact keyAt_fork _ _ _ _ _ _ _ _ _
  | node v' m' ch ih =>
    cases rest with
    | nil =>
      have h1 := wf_node_length hw
      have : k.nibbles.length = 64 := by simp
      rw [hk] at this; simp at this; omega
    | cons i rest =>
      have hother : ∀ j, j ≠ i → KeyAt ver k (ch j) := by
        intro j hj
        apply keyAt_of_not_mem
        intro y hy
        have hp := mem_entries_prefix (hw.1 j) hy
        rw [hk, List.prefix_append_right_inj] at hp
        obtain ⟨z, hz⟩ := hp
        simp at hz
        exact hj hz.1
      have hi := ih i (p ++ [i]) rest (by simp [hk]) (hw.1 i)
      have hall : ∀ t', KeyAt ver k t' → ∀ j, KeyAt ver k (upd ch i t' j) := by
        intro t' ht' j
        by_cases hj : j = i
        · subst hj; rw [upd_same]; exact ht'
        · rw [upd_ne _ _ hj]; exact hother j hj
      unfold put
      cases hr : put ver m k x rest (ch i) with
      | notChanged =>
        rw [hr] at hi
        intro j
        by_cases hj : j = i
        · subst hj; exact hi
        · exact hother j hj
      | removed => exact keyAt_finish (hall _ trivial)
      | updated t' =>
        rw [hr] at hi
        exact keyAt_finish (hall _ hi)

theorem put_keyAt_keep {ver : Version} {m : Bool} {k k0 : Key} {x : Option D} (t : VTree D) (rest : List Nibble)
    (h : KeyAt ver k0 t) : KeyAt ver k0 (after t (put ver m k x rest t)) := by
  induction t generalizing rest with
  | empty => cases x <;> simp [put, after, KeyAt]
  | leaf v' k' h' =>
    unfold put
    split
    · cases x <;> simp [after, KeyAt]
    · cases x with
      | none => exact h
      | some y => exact keyAt_fork _ _ _ _ _ _ _ _ _
  | node v' m' ch ih =>
    cases rest with
    | nil => exact h
    | cons i rest =>
      have hi := ih i rest (h i)
      have hall : ∀ t', KeyAt ver k0 t' → ∀ j, KeyAt ver k0 (upd ch i t' j) := by
        intro t' ht' j
        by_cases hj : j = i
        · subst hj; rw [upd_same]; exact ht'
        · rw [upd_ne _ _ hj]; exact h j
      unfold put
      cases hr : put ver m k x rest (ch i) with
      | notChanged => exact h
      | removed => exact keyAt_finish (hall _ trivial)
      | updated t' =>
        rw [hr] at hi
        exact keyAt_finish (hall _ hi)

theorem applySet_keyAt {ver : Version} {m : Bool} {k : Key} (s : List (Key × Option D)) {t : VTree D} (hw : WF [] t)
    (h : KeyAt ver k t ∨ k ∈ s.map Prod.fst) : KeyAt ver k (applySet ver m s t) := by
  induction s generalizing t with
  | nil => rcases h with h | h
           · exact h
           · simp at h
  | cons e s ih =>
    have hw' := (applyOne_spec ver m e.1 e.2 hw).1
    refine ih hw' ?_
    rcases h with h | h
    · left; exact put_keyAt_keep t _ h
    · rw [List.map_cons, List.mem_cons] at h
      rcases h with rfl | h
      · left; exact put_keyAt t [] _ (by simp) hw
      · right; exact h

theorem create_keyAt (ver : Version) (m : Bool) (k : Key) (h : Nat) : ∀ kvs : List (Key × D), KeyAt ver k (create ver m h kvs) := by
  induction h with
  | zero =>
    intro kvs
    match kvs with
    | [] => exact trivial
    | [(k', x)] => exact fun _ => rfl
    | _ :: _ :: _ => exact trivial
  | succ h ih =>
    intro kvs
    match kvs with
    | [] => exact trivial
    | [(k', x)] => exact fun _ => rfl
    | a :: b :: l => exact fun i => ih _

theorem binsert_keyAt {ver : Version} {m : Bool} {k : Key} (t : VTree D) (p : List Nibble) (h : Nat) (kvs : List (Key × D))
    (hu : Under p kvs) (hp : p.length + h = 64) (hw : WF p t) (hk : k ∈ kvs.map Prod.fst) : KeyAt ver k (binsert ver m h kvs t) := by
  induction t generalizing p h kvs with
  | empty => cases h <;> exact create_keyAt _ _ _ _ _
  | leaf v k' x => cases h <;> exact create_keyAt _ _ _ _ _
  | node v m' ch ih =>
    have hlt := wf_node_length hw
    obtain ⟨h, rfl⟩ : ∃ h', h = h' + 1 := ⟨h - 1, by omega⟩
    intro i
    have hidx : 64 - (h + 1) = p.length := by omega
    simp only [hidx]
    obtain ⟨e, he, rfl⟩ := List.mem_map.1 hk
    by_cases hi : e.1.nibble p.length = i
    · have hm : e ∈ grp kvs p.length i := mem_grp.2 ⟨he, hi⟩
      rw [if_neg (List.ne_nil_of_mem hm)]
      exact ih i (p ++ [i]) h _ (hu.grp hlt i) (by simp; omega) (hw.1 i) (List.mem_map.2 ⟨e, hm, rfl⟩)
    · have hno : ∀ x, (e.1, x) ∉ (if grp kvs p.length i = [] then ch i else binsert ver m h (grp kvs p.length i) (ch i)).entries := by
        intro x hx
        have hpre : p ++ [i] <+: e.1.nibbles := by
          split at hx
          · exact mem_entries_prefix (hw.1 i) hx
          · exact mem_entries_prefix (binsert_spec ver m (ch i) (p ++ [i]) h _ (hu.grp hlt i) (by simp; omega) (hw.1 i)).1 hx
        exact hi ((prefix_snoc_iff hlt (hu.pre e he) i).1 hpre)
      exact keyAt_of_not_mem hno

theorem keyAt_setVersion {ver : Version} {k : Key} {t : VTree D} (h : KeyAt ver k t) : KeyAt ver k (t.setVersion ver) := by
  cases t with
  | empty => trivial
  | leaf => exact fun _ => rfl
  | node => exact h

end VTree

theorem commit_keyAt (H : Hasher D) (c : Commit) (ver : Version) {t : VTree D} (hw : WF [] t) {k : Key}
    (hk : (lastOf c.updates k).isSome = true) : KeyAt ver k ((c.tree H ver t).setVersion ver) := by
  apply keyAt_setVersion
  cases c with
  | seq m s =>
    apply applySet_keyAt _ hw
    right
    simp only [hashSet, List.map_map]
    obtain ⟨e, he, rfl⟩ := (lastOf_isSome_iff _ _).1 hk
    exact List.mem_map.2 ⟨e, he, rfl⟩
  | batch m s =>
    refine binsert_keyAt t [] 64 _ (under_hashKvs H s) (by simp) hw ?_
    rw [Commit.updates, lastOf_map_some] at hk
    obtain ⟨x, hx⟩ := Option.isSome_iff_exists.1 hk
    rw [Option.map_eq_some_iff] at hx
    obtain ⟨y, hy, _⟩ := hx
    simp only [hashKvs, List.map_map]
    exact List.mem_map.2 ⟨(k, y), sortDedup_mem.2 hy, rfl⟩

theorem treeAt_succ {H : Hasher D} {v0 : Version} {hist : List Commit} {u : Version} (h0 : v0 ≤ u) {c : Commit}
    (hc : hist[u + 1 - v0]? = some c) : treeAt H v0 hist (u + 1) = (c.tree H (u + 1) (treeAt H v0 hist u)).setVersion (u + 1) := by
  obtain ⟨hlt, he⟩ := List.getElem?_eq_some_iff.1 hc
  unfold treeAt
  rw [show u + 1 + 1 - v0 = (u + 1 - v0) + 1 by omega, List.take_add_one, hc]
  simp only [Option.toList_some]
  rw [treeFold_append, List.length_take, Nat.min_eq_left (by omega)]
  rw [show v0 + (u + 1 - v0) = u + 1 by omega]
  rfl

/-- The contents of a key have not changed since the version of its leaf. -/
theorem StoreInv.leafValue {H : Hasher D} {v0 lo : Version} {hist : List Commit} {s : Store D} (h : StoreInv H v0 hist lo s)
    {w : Version} {q : List Nibble} {l : LeafNode D} (h0 : v0 ≤ w) (d : Nat) (h1 : w + d < v0 + hist.length)
    (hl : (treeAt H v0 hist (w + d)).at? H w q = some (.leaf l)) :
    contents ((hist.take (w + d + 1 - v0)).map Commit.updates) l.keyHash =
      contents ((hist.take (w + 1 - v0)).map Commit.updates) l.keyHash := by
  induction d with
  | zero => rfl
  | succ d ih =>
    have hl' := h.inv.chain (w + d) (by omega) (by omega) w q _ (by omega) hl
    rw [← ih (by omega) hl']
    have hlt : w + d + 1 - v0 < hist.length := by omega
    have hc : hist[w + d + 1 - v0]? = some hist[w + d + 1 - v0] := List.getElem?_eq_getElem hlt
    rw [show w + (d + 1) + 1 - v0 = (w + d + 1 - v0) + 1 by omega, List.take_add_one, hc]
    simp only [Option.toList_some]
    rw [List.map_append, List.map_singleton, contents_snoc, applyUpdates_lastOf]
    cases hq : lastOf (hist[w + d + 1 - v0]).updates l.keyHash with
    | none => rfl
    | some x =>
      exfalso
      have hk := commit_keyAt H hist[w + d + 1 - v0] (w + d + 1) (h.inv.tree (w + d) (by omega) (by omega)).1
        (k := l.keyHash) (by rw [hq]; rfl)
      rw [← treeAt_succ (by omega) hc] at hk
      have := (keyAt_iff H).1 hk w q l hl rfl
      omega

end Verif.Jmt
