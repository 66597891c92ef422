import Verif.Jmt.Restore
import Verif.Proofs.BatchRefine
/-!
The state of a restore as a zipper: the tree restored so far, opened along the path of the last key.
-/

set_option autoImplicit false

namespace Verif.Jmt
open VTree
variable {D : Type}

/-! keys -/

theorem Key.take_succ (k : Key) {j : Nat} (hj : j < 64) : k.nibbles.take (j + 1) = k.nibbles.take j ++ [k.nibble j] := by
  have h : j < k.nibbles.length := by simpa using hj
  rw [List.take_succ_eq_append_getElem h]
  simp [Key.nibbles]

theorem Key.drop_nibbles (k : Key) {j : Nat} (hj : j < 64) : k.nibbles.drop j = k.nibble j :: k.nibbles.drop (j + 1) := by
  have h : j < k.nibbles.length := by simpa using hj
  rw [List.drop_eq_getElem_cons h]
  simp [Key.nibbles]

theorem Key.take_length (k : Key) {j : Nat} (hj : j ≤ 64) : (k.nibbles.take j).length = j := by simp [hj]

theorem Key.take_prefix (k : Key) (j : Nat) : k.nibbles.take j <+: k.nibbles := List.take_prefix _ _

theorem commonPrefixLen_append_lt {α : Type} [DecidableEq α] (a b s t : List α) (hl : a.length = b.length)
    (h : commonPrefixLen a b < a.length) : commonPrefixLen (a ++ s) (b ++ t) = commonPrefixLen a b := by
  induction a generalizing b with
  | nil => simp at h
  | cons x a ih =>
    cases b with
    | nil => simp at hl
    | cons y b =>
      by_cases hxy : x = y
      · simp only [List.cons_append, commonPrefixLen, hxy, if_true] at h ⊢
        rw [ih b (by simpa using hl) (by simpa using h)]
      · simp [commonPrefixLen, hxy]

theorem nibBits_lcp : ∀ x y : Nibble, x ≠ y → commonPrefixLen (nibBits x) (nibBits y) < 4 := by decide

/-- Two different keys part at nibble `common_prefix_nibbles_len`, the smaller one to the left. -/
theorem Key.lt_split {a b : Key} (h : a < b) :
    ∃ c, c < 64 ∧ a.commonPrefixNibblesLen b = c ∧ a.nibbles.take c = b.nibbles.take c ∧ a.nibble c < b.nibble c := by
  have hne : a.nibbles ≠ b.nibbles := by
    intro he
    rw [Key.nibbles_inj he] at h
    exact Key.lt_irrefl _ h
  have hle := commonPrefixLen_le_left a.nibbles b.nibbles
  have ht := take_commonPrefixLen a.nibbles b.nibbles
  have hd := drop_commonPrefixLen a.nibbles b.nibbles
  generalize hc : commonPrefixLen a.nibbles b.nibbles = c at *
  rw [Key.nibbles_length] at hle
  have hlt : c < 64 := by
    rcases Nat.lt_or_ge c 64 with h | h
    · exact h
    · exfalso
      have : c = 64 := by omega
      subst this
      have e1 := List.take_length (l := a.nibbles)
      have e2 := List.take_length (l := b.nibbles)
      rw [Key.nibbles_length] at e1 e2
      rw [e1, e2] at ht
      exact hne ht
  rw [Key.drop_nibbles a hlt, Key.drop_nibbles b hlt] at hd
  have hxy : a.nibble c ≠ b.nibble c := by
    rcases hd with ⟨x, y, s, t, hxy, h1, h2⟩ | hd | hd
    · cases h1; cases h2; exact hxy
    · cases hd
    · cases hd
  have sa : a.nibbles = a.nibbles.take c ++ a.nibble c :: a.nibbles.drop (c + 1) := by
    rw [← Key.drop_nibbles a hlt, List.take_append_drop]
  have sb : b.nibbles = a.nibbles.take c ++ b.nibble c :: b.nibbles.drop (c + 1) := by
    rw [ht, ← Key.drop_nibbles b hlt, List.take_append_drop]
  refine ⟨c, hlt, ?_, ht, ?_⟩
  · unfold Key.commonPrefixNibblesLen
    rw [Key.commonPrefixBitsLen_eq, Key.bits_eq, Key.bits_eq, sa, sb]
    simp only [List.flatMap_append, List.flatMap_cons]
    rw [commonPrefixLen_append_left, commonPrefixLen_append_lt _ _ _ _ (by simp) (by rw [nibBits_length]; exact nibBits_lcp _ _ hxy)]
    have := nibBits_lcp _ _ hxy
    rw [flatMap_nibBits_length, Key.take_length a (by omega)]
    omega
  · rcases Nat.lt_trichotomy (a.nibble c).val (b.nibble c).val with hlt' | heq | hgt
    · exact hlt'
    · exact absurd (Fin.ext heq) hxy
    · exfalso
      have : b < a := prefix_snoc_lt (p := a.nibbles.take c) (i := b.nibble c) (j := a.nibble c)
        ⟨_, by rw [List.append_assoc, List.singleton_append]; exact sb.symm⟩
        ⟨_, by rw [List.append_assoc, List.singleton_append]; exact sa.symm⟩ hgt
      exact List.lt_asymm (show a.bytes < b.bytes from h) this

theorem Key.nibble_eq_of_take {a b : Key} {c j : Nat} (hc : c ≤ 64) (h : a.nibbles.take c = b.nibbles.take c) (hj : j < c) :
    a.nibble j = b.nibble j := by
  have h1 : a.nibbles.take (j + 1) = b.nibbles.take (j + 1) := by
    have e : ∀ x : Key, x.nibbles.take (j + 1) = (x.nibbles.take c).take (j + 1) := by
      intro x; rw [List.take_take, Nat.min_eq_left (by omega)]
    rw [e a, e b, h]
  have h0 : a.nibbles.take j = b.nibbles.take j := by
    have e : ∀ x : Key, x.nibbles.take j = (x.nibbles.take c).take j := by
      intro x; rw [List.take_take, Nat.min_eq_left (by omega)]
    rw [e a, e b, h]
  rw [Key.take_succ a (by omega), Key.take_succ b (by omega), h0] at h1
  simpa using List.append_cancel_left h1

theorem Key.take_eq_of_take {a b : Key} {c j : Nat} (h : a.nibbles.take c = b.nibbles.take c) (hj : j ≤ c) :
    a.nibbles.take j = b.nibbles.take j := by
  have e : ∀ x : Key, x.nibbles.take j = (x.nibbles.take c).take j := by
    intro x; rw [List.take_take, Nat.min_eq_left hj]
  rw [e a, e b, h]

/-! the zipper -/

/-- All nodes have version `v` and migration flag `m`. -/
def VTree.Uni (v : Version) (m : Bool) : VTree D → Prop
  | .empty => True
  | .leaf v' _ _ => v' = v
  | .node v' m' ch => v' = v ∧ m' = m ∧ ∀ i, Uni v m (ch i)

/-- What `partial_nodes` records about a finished child. -/
def VTree.info (H : Hasher D) : VTree D → Option (ChildInfo D)
  | .empty => none
  | .leaf _ k h => some (.leaf ⟨k, h⟩)
  | .node _ m ch => some (.internal (some ((InternalNode.ofFun m (fun i => (ch i).child H)).hash H))
      (InternalNode.ofFun m (fun i => (ch i).child H)).leafCount)

theorem VTree.info_eq_none {H : Hasher D} {t : VTree D} : t.info H = none ↔ t = .empty := by
  cases t <;> simp [VTree.info]

/-- Levels `0 … n` of the path of `key`: the finished children `C j` of the levels above the last one, and all children `B`
of the last one. -/
structure Zip (D : Type) where
  key : Key
  n : Nat
  C : Nat → Nibble → VTree D
  B : Nibble → VTree D

namespace Zip

def path (z : Zip D) (j : Nat) : List Nibble := z.key.nibbles.take j

def upInfo (H : Hasher D) (v : Version) (z : Zip D) (j : Nat) : InternalInfo D :=
  ⟨⟨v, z.path j⟩, fun i => if i = z.key.nibble j then some (.internal none none) else (z.C j i).info H⟩

def botInfo (H : Hasher D) (v : Version) (z : Zip D) : InternalInfo D := ⟨⟨v, z.path z.n⟩, fun i => (z.B i).info H⟩

def infos (H : Hasher D) (v : Version) (z : Zip D) : List (InternalInfo D) :=
  (List.range z.n).map (z.upInfo H v) ++ [z.botInfo H v]

structure Good (v : Version) (m : Bool) (z : Zip D) : Prop where
  lt : z.n < 64
  cwf : ∀ j, j < z.n → ∀ i, WF (z.path j ++ [i]) (z.C j i)
  cuni : ∀ j, j < z.n → ∀ i, Uni v m (z.C j i)
  cemp : ∀ j, j < z.n → ∀ i, z.key.nibble j ≤ i → z.C j i = .empty
  bwf : ∀ i, WF (z.path z.n ++ [i]) (z.B i)
  buni : ∀ i, Uni v m (z.B i)
  bemp : ∀ i, z.key.nibble z.n < i → z.B i = .empty

/-- The node at path `q` in one of the finished children. -/
def Fr (H : Hasher D) (v : Version) (z : Zip D) (q : List Nibble) (x : Node D) : Prop :=
  (∃ j, j < z.n ∧ ∃ i q', q = z.path j ++ i :: q' ∧ (z.C j i).at? H v q' = some x) ∨
  (∃ i q', q = z.path z.n ++ i :: q' ∧ (z.B i).at? H v q' = some x)

/-- All entries in order. -/
def entries (z : Zip D) : List (Key × D) :=
  (List.range z.n).flatMap (fun j => esOf (z.C j) (List.finRange 16)) ++ esOf z.B (List.finRange 16)

end Zip

/-- The nodes stored or about to be stored. -/
def Restore.M (r : Restore D) (nk : NodeKey) : Option (Node D) := (r.frozenNodes.nodes.get nk).or (r.store.nodes.get nk)

/-- The restore state shows the zipper; `pend`: the leaf of the last key is not among the frozen nodes yet. -/
structure Core (H : Hasher D) (v : Version) (m : Bool) (z : Zip D) (pend : Bool) (r : Restore D) : Prop where
  ver : r.version = v
  mig : r.migration = m
  parts : r.partialNodes = z.infos H v
  good : z.Good v m
  map : ∀ nk x, r.M nk = some x ↔ nk.version = v ∧ z.Fr H v nk.path x ∧ (pend = true → nk.path ≠ z.path (z.n + 1))
  disj : ∀ nk, r.store.nodes.get nk = none ∨ r.frozenNodes.nodes.get nk = none
  nodup : r.frozenNodes.nodes.NodupKeys

theorem path_split {z : Zip D} {a b : Nat} {i : Nibble} {q : List Nibble} (ha : a ≤ 64) (hb : b < 64) (h : z.path a = z.path b ++ i :: q) :
    b < a ∧ i = z.key.nibble b := by
  unfold Zip.path at h
  have hl := congrArg List.length h
  rw [Key.take_length _ ha, List.length_append, Key.take_length _ (by omega : b ≤ 64), List.length_cons] at hl
  have hba : b < a := by omega
  refine ⟨hba, ?_⟩
  have e : z.key.nibbles.take (b + 1) = (z.key.nibbles.take a).take (b + 1) := by
    rw [List.take_take, Nat.min_eq_left (by omega)]
  rw [h, Key.take_succ _ hb, List.take_append, Key.take_length _ (by omega : b ≤ 64), List.take_take, Nat.min_eq_right (by omega)] at e
  have : b + 1 - b = 1 := by omega
  rw [this] at e
  simpa using (List.append_cancel_left e).symm

/-- Nodes on the open path are not frozen. -/
theorem Zip.Good.fr_path {H : Hasher D} {v : Version} {m : Bool} {z : Zip D} (g : z.Good v m) {a : Nat} (ha : a ≤ z.n) (x : Node D) :
    ¬ z.Fr H v (z.path a) x := by
  have hlt := g.lt
  rintro (⟨j, hj, i, q, he, hx⟩ | ⟨i, q, he, hx⟩)
  · obtain ⟨_, rfl⟩ := path_split (by omega) (by omega) he
    rw [g.cemp j hj _ (Nat.le_refl _)] at hx
    simp at hx
  · obtain ⟨h, _⟩ := path_split (by omega) hlt he
    omega

theorem M_insertNode (r : Restore D) (nk : NodeKey) (x : Node D) (nk' : NodeKey) :
    ({ r with frozenNodes := r.frozenNodes.insertNode nk x } : Restore D).M nk' = if nk' = nk then some x else r.M nk' := by
  simp only [Restore.M, NodeBatch.insertNode, FMap.get_set]
  split <;> rfl

/-- Freezing one more node at a free position. -/
theorem disj_insert {r : Restore D} {nk : NodeKey} {x : Node D} (hd : ∀ nk, r.store.nodes.get nk = none ∨ r.frozenNodes.nodes.get nk = none)
    (hfree : r.M nk = none) : ∀ nk', r.store.nodes.get nk' = none ∨ (r.frozenNodes.insertNode nk x).nodes.get nk' = none := by
  intro nk'
  simp only [NodeBatch.insertNode, FMap.get_set]
  by_cases h : nk' = nk
  · subst h
    left
    simp only [Restore.M, Option.or_eq_none_iff] at hfree
    exact hfree.2
  · simp only [h, if_false]; exact hd nk'

theorem find_last (f : Nibble → Bool) (i : Nibble) (hi : f i = true) (hgt : ∀ j, i < j → f j = false) :
    (List.finRange 16).reverse.find? f = some i := by
  have hex : ∃ j, (List.finRange 16).reverse.find? f = some j := by
    rw [← Option.isSome_iff_exists, List.find?_isSome]
    exact ⟨i, by simp, hi⟩
  obtain ⟨j, hj⟩ := hex
  rw [hj]
  have hfj := List.find?_some hj
  rw [List.find?_eq_some_iff_append] at hj
  obtain ⟨_, as, bs, hsplit, hno⟩ := hj
  congr 1
  rcases Nat.lt_trichotomy i.val j.val with h | h | h
  · have := hgt j h
    rw [this] at hfj; cases hfj
  · exact (Fin.ext h).symm
  · exfalso
    have hmem : i ∈ as ++ j :: bs := by rw [← hsplit]; simp
    rw [List.mem_append, List.mem_cons] at hmem
    rcases hmem with hm | rfl | hm
    · have := hno i hm
      simp [hi] at this
    · exact Nat.lt_irrefl _ h
    · have hs : (as ++ j :: bs).Pairwise (fun a b => b < a) := by
        rw [← hsplit, List.pairwise_reverse]
        exact List.pairwise_lt_finRange 16
      have := (List.pairwise_append.1 hs).2.1
      have := List.rel_of_pairwise_cons this hm
      exact absurd (show i.val < j.val from this) (by omega)

/-- `freeze_previous_leaf` when a leaf is pending. -/
theorem Core.freezeLeaf {H : Hasher D} {v : Version} {m : Bool} {z : Zip D} {r : Restore D} (h : Core H v m z true r)
    {vh : D} (hb : z.B (z.key.nibble z.n) = .leaf v z.key vh) (hnum : r.numKeysReceived ≠ 0) :
    ∃ fz, r.freezePreviousLeaf = .ok { r with frozenNodes := fz } ∧ fz.values = r.frozenNodes.values ∧
      Core H v m z false { r with frozenNodes := fz } := by
  have hlt := h.good.lt
  have hfree : r.M ⟨v, z.path (z.n + 1)⟩ = none := by
    rw [Option.eq_none_iff_forall_ne_some]
    intro x hx
    exact ((h.map _ _).1 hx).2.2 rfl rfl
  refine ⟨r.frozenNodes.insertNode ⟨v, z.path (z.n + 1)⟩ (.leaf ⟨z.key, vh⟩), ?_, rfl, ?_⟩
  · unfold Restore.freezePreviousLeaf
    rw [if_neg hnum]
    have hl : r.partialNodes.getLast? = some (z.botInfo H v) := by rw [h.parts, Zip.infos]; simp
    have hr : (z.botInfo H v).rightmost = some (z.key.nibble z.n) := by
      apply find_last
      · simp [Zip.botInfo, hb, VTree.info]
      · intro j hj
        simp [Zip.botInfo, h.good.bemp j hj, VTree.info]
    have hc : (z.botInfo H v).children (z.key.nibble z.n) = some (.leaf ⟨z.key, vh⟩) := by simp [Zip.botInfo, hb, VTree.info]
    have hk : (z.botInfo H v).nodeKey.genChild r.version (z.key.nibble z.n) = .ok ⟨v, z.path (z.n + 1)⟩ := by
      unfold NodeKey.genChild
      rw [if_pos, h.ver]
      · simp only [Zip.botInfo, Zip.path, Key.take_succ _ hlt]
      · simp only [Zip.botInfo, Zip.path, rootNibbleHeight]
        rw [Key.take_length _ (by omega)]; exact hlt
    simp only [hl, hr, hc, hk, Res.ok_bind, Res.pure_eq]
  · refine ⟨h.ver, h.mig, h.parts, h.good, ?_, disj_insert h.disj hfree, h.nodup.set _ _⟩
    intro nk x
    rw [M_insertNode]
    by_cases he : nk = ⟨v, z.path (z.n + 1)⟩
    · subst he
      simp only [if_true, Option.some.injEq, true_and, Bool.false_eq_true, false_imp_iff, and_true]
      constructor
      · rintro rfl
        right
        refine ⟨z.key.nibble z.n, [], ?_, ?_⟩
        · simp only [Zip.path, Key.take_succ _ hlt]
        · rw [hb, at?_leaf, if_pos ⟨rfl, rfl⟩]
      · rintro (⟨j, hj, i, q, hq, hx⟩ | ⟨i, q, hq, hx⟩)
        · obtain ⟨_, rfl⟩ := path_split (by omega) (by omega) hq
          rw [h.good.cemp j hj _ (Nat.le_refl _)] at hx
          simp at hx
        · obtain ⟨_, rfl⟩ := path_split (by omega) hlt hq
          rw [hb, at?_leaf] at hx
          split at hx
          · exact Option.some.inj hx
          · cases hx
    · rw [if_neg he, h.map]
      constructor
      · rintro ⟨h1, h2, _⟩; exact ⟨h1, h2, by simp⟩
      · rintro ⟨h1, h2, _⟩
        refine ⟨h1, h2, fun _ hp => he ?_⟩
        cases nk; simp_all

theorem VTree.Uni.version {v : Version} {m : Bool} {t : VTree D} (h : Uni v m t) (hn : t ≠ .empty) : t.version = v := by
  cases t with
  | empty => exact absurd rfl hn
  | leaf => exact h
  | node => exact h.1

theorem VTree.Uni.at?_version {H : Hasher D} {v w : Version} {m : Bool} {t : VTree D} (h : Uni v m t) {q : List Nibble} {x : Node D}
    (hx : t.at? H w q = some x) : w = v := by
  induction t generalizing q with
  | empty => simp at hx
  | leaf v' k d =>
    rw [at?_leaf] at hx
    split at hx
    · rename_i hh; rw [hh.1]; exact h
    · cases hx
  | node v' m' ch ih =>
    cases q with
    | nil =>
      rw [at?_node_nil] at hx
      split at hx
      · rename_i hh; rw [hh]; exact h.1
      · cases hx
    | cons i q => rw [at?_node_cons] at hx; exact ih i (h.2.2 i) hx

theorem intoChild_info {H : Hasher D} {v : Version} {m : Bool} {t : VTree D} (h : Uni v m t) {ci : ChildInfo D} (hi : t.info H = some ci) :
    ∃ c, ci.intoChild H v = .ok c ∧ t.child H = some c := by
  cases t with
  | empty => simp [VTree.info] at hi
  | leaf v' k d =>
    simp only [VTree.info, Option.some.injEq] at hi
    subst hi
    have : v' = v := h
    subst this
    exact ⟨_, rfl, rfl⟩
  | node v' m' ch =>
    simp only [VTree.info, Option.some.injEq] at hi
    subst hi
    have : v' = v := h.1
    subst this
    refine ⟨_, ?_, rfl⟩
    rcases hl : (InternalNode.ofFun m' (fun i => (ch i).child H)).leafCount with _ | n
    · simp [ChildInfo.intoChild, InternalNode.nodeType, hl]
    · simp [ChildInfo.intoChild, InternalNode.nodeType, hl]

theorem intoChildren_eq {H : Hasher D} {v : Version} {m : Bool} {B : Nibble → VTree D} (hu : ∀ i, Uni v m (B i)) :
    InternalInfo.intoChildren H v (fun i => (B i).info H) (List.finRange 16) .new = .ok (.ofFun (fun i => (B i).child H)) := by
  have key : ∀ (l : List Nibble) (f : Nibble → Option (Child D)), l.Nodup → (∀ i ∈ l, f i = none) →
      InternalInfo.intoChildren H v (fun i => (B i).info H) l (.ofFun f) =
        .ok (.ofFun (fun i => if i ∈ l then (B i).child H else f i)) := by
    intro l
    induction l with
    | nil => intro f _ _; simp [InternalInfo.intoChildren]
    | cons a l ih =>
      intro f hn hf
      rw [List.nodup_cons] at hn
      rcases hi : (B a).info H with _ | ci
      · have he := VTree.info_eq_none.1 hi
        simp only [InternalInfo.intoChildren, hi]
        rw [ih f hn.2 (fun i h => hf i (List.mem_cons_of_mem _ h))]
        congr 2
        funext i
        by_cases hia : i = a
        · subst hia; simp [hn.1, he, VTree.child, hf i]
        · simp [hia]
      · obtain ⟨c, h1, h2⟩ := intoChild_info (hu a) hi
        simp only [InternalInfo.intoChildren, hi, h1, Res.ok_bind, Children.insert_ofFun]
        rw [ih _ hn.2]
        · congr 2
          funext i
          by_cases hia : i = a
          · subst hia; simp [hn.1, h2]
          · simp [hia, upd]
        · intro i h
          have : i ≠ a := by rintro rfl; exact hn.1 h
          rw [upd_ne _ _ this]
          exact hf i (List.mem_cons_of_mem _ h)
  rw [Children.new_eq, key (List.finRange 16) _ (List.nodup_finRange 16) (fun _ _ => rfl)]
  simp

/-- The node of the last level. -/
def Zip.botNode (v : Version) (m : Bool) (z : Zip D) : VTree D := .node v m z.B

theorem Zip.Good.bot_wf {v : Version} {m : Bool} {z : Zip D} (g : z.Good v m) (h2 : 2 ≤ (esOf z.B (List.finRange 16)).length) :
    WF (z.path z.n) (z.botNode v m) := ⟨g.bwf, h2⟩

theorem Zip.Good.bot_uni {v : Version} {m : Bool} {z : Zip D} (g : z.Good v m) : Uni v m (z.botNode v m) := ⟨rfl, rfl, g.buni⟩

/-- The zipper one level up. -/
def Zip.pop (v : Version) (m : Bool) (z : Zip D) : Zip D :=
  ⟨z.key, z.n - 1, z.C, upd (z.C (z.n - 1)) (z.key.nibble (z.n - 1)) (z.botNode v m)⟩

theorem esOf_upd_last {ch : Nibble → VTree D} {i : Nibble} (h : ∀ j, i ≤ j → ch j = .empty) (t : VTree D) :
    esOf (upd ch i t) (List.finRange 16) = esOf ch (List.finRange 16) ++ t.entries := by
  have key : ∀ l : List Nibble, l.Pairwise (· < ·) → i ∈ l → esOf (upd ch i t) l = esOf ch l ++ t.entries := by
    intro l
    induction l with
    | nil => intro _ hm; simp at hm
    | cons a l ih =>
      intro hp hm
      rw [List.pairwise_cons] at hp
      rcases List.mem_cons.1 hm with rfl | hm
      · have e1 : ∀ g : Nibble → VTree D, (∀ j, i < j → g j = .empty) → l.flatMap (fun j => (g j).entries) = [] := by
          intro g hg
          rw [List.flatMap_eq_nil_iff]
          intro j hj
          rw [hg j (hp.1 j hj)]; rfl
        simp only [esOf, List.flatMap_cons, upd_same]
        rw [e1 ch (fun j hj => h j (Nat.le_of_lt hj)), e1 (upd ch i t)]
        · rw [h i (Nat.le_refl _)]; simp [VTree.entries]
        · intro j hj
          rw [upd_ne _ _ (Fin.ne_of_gt hj)]
          exact h j (Nat.le_of_lt hj)
      · have hia : a ≠ i := Fin.ne_of_lt (hp.1 i hm)
        have := ih hp.2 hm
        simp only [esOf, List.flatMap_cons] at this ⊢
        rw [this, upd_ne _ _ hia, List.append_assoc]
  exact key _ (List.pairwise_lt_finRange 16) (List.mem_finRange i)

theorem Zip.pop_entries {v : Version} {m : Bool} {z : Zip D} (g : z.Good v m) (hn : 0 < z.n) : (z.pop v m).entries = z.entries := by
  have e : z.n = z.n - 1 + 1 := by omega
  unfold Zip.entries Zip.pop
  simp only
  rw [esOf_upd_last (g.cemp _ (by omega)), ← List.append_assoc]
  conv_rhs => rw [e, List.range_succ, List.flatMap_append]
  simp only [List.flatMap_cons, List.flatMap_nil, List.append_nil]
  rfl

theorem Zip.pop_good {v : Version} {m : Bool} {z : Zip D} (g : z.Good v m) (hn : 0 < z.n) (h2 : 2 ≤ (esOf z.B (List.finRange 16)).length) :
    (z.pop v m).Good v m := by
  have hlt := g.lt
  have hpath : z.path (z.n - 1) ++ [z.key.nibble (z.n - 1)] = z.path z.n := by
    unfold Zip.path
    rw [← Key.take_succ _ (by omega)]
    congr 1; omega
  refine ⟨by simp only [pop]; omega, fun j hj => g.cwf j (by simp only [pop] at hj; omega), fun j hj => g.cuni j (by simp only [pop] at hj; omega),
    fun j hj => g.cemp j (by simp only [pop] at hj; omega), ?_, ?_, ?_⟩
  · intro i
    show WF (z.path (z.n - 1) ++ [i]) (upd _ _ _ i)
    by_cases hi : i = z.key.nibble (z.n - 1)
    · subst hi
      rw [upd_same, hpath]; exact g.bot_wf h2
    · rw [upd_ne _ _ hi]; exact g.cwf _ (by omega) i
  · intro i
    show Uni v m (upd _ _ _ i)
    by_cases hi : i = z.key.nibble (z.n - 1)
    · subst hi
      rw [upd_same]; exact g.bot_uni
    · rw [upd_ne _ _ hi]; exact g.cuni _ (by omega) i
  · intro i hi
    show upd _ _ _ i = VTree.empty
    have hi' : z.key.nibble (z.n - 1) < i := hi
    rw [upd_ne _ _ (Fin.ne_of_gt hi')]
    exact g.cemp _ (by omega) i (Nat.le_of_lt hi')

theorem Zip.pop_two {v : Version} {m : Bool} {z : Zip D} (g : z.Good v m) (hn : 0 < z.n) (h2 : 2 ≤ (esOf z.B (List.finRange 16)).length) :
    2 ≤ (esOf (z.pop v m).B (List.finRange 16)).length := by
  show 2 ≤ (esOf (upd _ _ _) _).length
  rw [esOf_upd_last (g.cemp _ (by omega)), List.length_append]
  have : (z.botNode v m).entries = esOf z.B (List.finRange 16) := rfl
  rw [this]; omega

theorem Zip.pop_fr {H : Hasher D} {v : Version} {m : Bool} {z : Zip D} (g : z.Good v m) (hn : 0 < z.n) (q : List Nibble) (x : Node D) :
    (z.pop v m).Fr H v q x ↔ z.Fr H v q x ∨ (q = z.path z.n ∧ x = (z.botNode v m).toNode H) := by
  have hlt := g.lt
  have hpath : z.path z.n = z.path (z.n - 1) ++ [z.key.nibble (z.n - 1)] := by
    unfold Zip.path
    rw [← Key.take_succ _ (by omega)]
    congr 1; omega
  have hp : ∀ j, (z.pop v m).path j = z.path j := fun j => rfl
  unfold Zip.Fr
  simp only [hp]
  show ((∃ j, j < z.n - 1 ∧ ∃ i q', q = z.path j ++ i :: q' ∧ (z.C j i).at? H v q' = some x) ∨
    (∃ i q', q = z.path (z.n - 1) ++ i :: q' ∧ (upd (z.C (z.n - 1)) (z.key.nibble (z.n - 1)) (z.botNode v m) i).at? H v q' = some x)) ↔ _
  constructor
  · rintro (⟨j, hj, i, q', h1, h2⟩ | ⟨i, q', h1, h2⟩)
    · exact .inl (.inl ⟨j, by omega, i, q', h1, h2⟩)
    · by_cases hi : i = z.key.nibble (z.n - 1)
      · subst hi
        rw [upd_same, botNode] at h2
        cases q' with
        | nil =>
          rw [at?_node_nil, if_pos rfl] at h2
          right
          exact ⟨by rw [h1, hpath], (Option.some.inj h2).symm⟩
        | cons i' q' =>
          rw [at?_node_cons] at h2
          left; right
          exact ⟨i', q', by rw [h1, hpath]; simp, h2⟩
      · rw [upd_ne _ _ hi] at h2
        exact .inl (.inl ⟨z.n - 1, by omega, i, q', h1, h2⟩)
  · rintro ((⟨j, hj, i, q', h1, h2⟩ | ⟨i, q', h1, h2⟩) | ⟨rfl, rfl⟩)
    · by_cases hj' : j = z.n - 1
      · right
        subst hj'
        refine ⟨i, q', h1, ?_⟩
        have : i ≠ z.key.nibble (z.n - 1) := by
          rintro rfl
          rw [g.cemp _ hj _ (Nat.le_refl _)] at h2
          simp at h2
        rw [upd_ne _ _ this]; exact h2
      · exact .inl ⟨j, by omega, i, q', h1, h2⟩
    · right
      refine ⟨z.key.nibble (z.n - 1), i :: q', ?_, ?_⟩
      · rw [h1, hpath]; simp
      · rw [upd_same, botNode, at?_node_cons]; exact h2
    · right
      refine ⟨z.key.nibble (z.n - 1), [], hpath, ?_⟩
      rw [upd_same, botNode, at?_node_nil, if_pos rfl]

theorem Core.intoInternal {H : Hasher D} {v : Version} {m : Bool} {z : Zip D} {pend : Bool} {r : Restore D} (h : Core H v m z pend r)
    (h2 : 2 ≤ (esOf z.B (List.finRange 16)).length) :
    (z.botInfo H v).intoInternalNode H r.version r.migration =
      .ok (⟨v, z.path z.n⟩, InternalNode.ofFun m (fun i => (z.B i).child H)) := by
  unfold InternalInfo.intoInternalNode
  rw [h.ver, h.mig]
  have e : (z.botInfo H v).children = fun i => (z.B i).info H := rfl
  rw [e, intoChildren_eq h.good.buni]
  have := newMigration_wf (H := H) (h.good.bot_wf h2)
  simp only [Res.ok_bind, this, Res.pure_eq]
  rfl

theorem Core.bot_free {H : Hasher D} {v : Version} {m : Bool} {z : Zip D} {pend : Bool} {r : Restore D} (h : Core H v m z pend r) :
    r.M ⟨v, z.path z.n⟩ = none := by
  rw [Option.eq_none_iff_forall_ne_some]
  intro x hx
  exact h.good.fr_path (Nat.le_refl _) x ((h.map _ _).1 hx).2.1

theorem Core.getLast {H : Hasher D} {v : Version} {m : Bool} {z : Zip D} {pend : Bool} {r : Restore D} (h : Core H v m z pend r) :
    r.partialNodes.getLast? = some (z.botInfo H v) := by rw [h.parts, Zip.infos]; simp

theorem Core.dropLast {H : Hasher D} {v : Version} {m : Bool} {z : Zip D} {pend : Bool} {r : Restore D} (h : Core H v m z pend r) :
    r.partialNodes.dropLast = (List.range z.n).map (z.upInfo H v) := by rw [h.parts, Zip.infos]; simp

/-- Freezing the lowest internal node. -/
theorem Core.popStep {H : Hasher D} {v : Version} {m : Bool} {z : Zip D} {r : Restore D} (h : Core H v m z false r)
    (hn : 0 < z.n) (h2 : 2 ≤ (esOf z.B (List.finRange 16)).length) (k : Nat) :
    ∃ fz ps, Restore.freezeInternalNodes H (k + 1) r = Restore.freezeInternalNodes H k { r with partialNodes := ps, frozenNodes := fz } ∧
      fz.values = r.frozenNodes.values ∧ Core H v m (z.pop v m) false { r with partialNodes := ps, frozenNodes := fz } := by
  have hlt := h.good.lt
  obtain ⟨n', hn'⟩ : ∃ n', z.n = n' + 1 := ⟨z.n - 1, by omega⟩
  have hpn : z.n - 1 = n' := by omega
  refine ⟨r.frozenNodes.insertNode ⟨v, z.path z.n⟩ ((z.botNode v m).toNode H), (z.pop v m).infos H v, ?_, rfl, ?_⟩
  · conv_lhs => unfold Restore.freezeInternalNodes
    simp only [h.getLast, h.intoInternal h2, h.dropLast, Res.ok_bind]
    have hup : Restore.updateParent ((List.range z.n).map (z.upInfo H v)) ((InternalNode.ofFun m (fun i => (z.B i).child H)).hash H)
        (InternalNode.ofFun m (fun i => (z.B i).child H)).leafCount = .ok ((z.pop v m).infos H v) := by
      unfold Restore.updateParent
      have hl : ((List.range z.n).map (z.upInfo H v)).getLast? = some (z.upInfo H v n') := by rw [hn', List.range_succ]; simp
      have hd : ((List.range z.n).map (z.upInfo H v)).dropLast = (List.range n').map (z.upInfo H v) := by rw [hn', List.range_succ]; simp
      have hr : (z.upInfo H v n').rightmost = some (z.key.nibble n') := by
        apply find_last
        · simp [Zip.upInfo]
        · intro j hj
          simp [Zip.upInfo, Fin.ne_of_gt hj, h.good.cemp n' (by omega) j (Nat.le_of_lt hj), VTree.info]
      have hc : (z.upInfo H v n').children (z.key.nibble n') = some (.internal none none) := by simp [Zip.upInfo]
      simp only [hl, hr, hc, hd, Option.isNone_none, assert_true, Res.ok_bind, Res.pure_eq]
      congr 1
      unfold Zip.infos
      have e1 : (z.pop v m).n = n' := hpn
      have e2 : (z.pop v m).upInfo H v = z.upInfo H v := rfl
      rw [e1, e2]
      congr 2
      unfold InternalInfo.setChild Zip.upInfo Zip.botInfo
      show InternalInfo.mk _ _ = InternalInfo.mk ⟨v, z.path (z.n - 1)⟩ (fun i => ((upd (z.C (z.n - 1)) (z.key.nibble (z.n - 1)) (z.botNode v m)) i).info H)
      rw [hpn]
      congr 1
      funext i
      by_cases hi : i = z.key.nibble n'
      · simp [hi, Zip.botNode, VTree.info]
      · simp [hi, upd]
    rw [hup]
    rfl
  · refine ⟨h.ver, h.mig, rfl, Zip.pop_good h.good hn h2, ?_, disj_insert h.disj h.bot_free, h.nodup.set _ _⟩
    intro nk x
    have : ({ r with partialNodes := (z.pop v m).infos H v, frozenNodes := r.frozenNodes.insertNode ⟨v, z.path z.n⟩ ((z.botNode v m).toNode H) } : Restore D).M nk
        = if nk = ⟨v, z.path z.n⟩ then some ((z.botNode v m).toNode H) else r.M nk := M_insertNode r _ _ nk
    rw [this, Zip.pop_fr h.good hn]
    by_cases he : nk = ⟨v, z.path z.n⟩
    · subst he
      simp only [if_true, Option.some.injEq, true_and, Bool.false_eq_true, false_imp_iff, and_true]
      constructor
      · rintro rfl; exact .inr rfl
      · rintro (h' | h')
        · exact absurd h' (h.good.fr_path (Nat.le_refl _) x)
        · exact h'.symm
    · rw [if_neg he, h.map]
      simp only [Bool.false_eq_true, false_imp_iff, and_true]
      constructor
      · rintro ⟨h1, h2⟩; exact ⟨h1, .inl h2⟩
      · rintro ⟨h1, h2 | ⟨h2, _⟩⟩
        · exact ⟨h1, h2⟩
        · exfalso; apply he; cases nk; simp_all

/-- Freezing down to level `j`. -/
theorem Core.popTo {H : Hasher D} {v : Version} {m : Bool} (d : Nat) {z : Zip D} {r : Restore D} (h : Core H v m z false r)
    {j : Nat} (hj : z.n = j + d) (h2 : 0 < z.n → 2 ≤ (esOf z.B (List.finRange 16)).length) :
    ∃ fz ps z', Restore.freezeInternalNodes H d r = .ok { r with partialNodes := ps, frozenNodes := fz } ∧
      fz.values = r.frozenNodes.values ∧ Core H v m z' false { r with partialNodes := ps, frozenNodes := fz } ∧
      z'.key = z.key ∧ z'.n = j ∧ z'.entries = z.entries ∧ (0 < z.n → 2 ≤ (esOf z'.B (List.finRange 16)).length) := by
  induction d generalizing z r with
  | zero => exact ⟨r.frozenNodes, r.partialNodes, z, rfl, rfl, h, rfl, hj, rfl, h2⟩
  | succ d ih =>
    have hn : 0 < z.n := by omega
    obtain ⟨fz, ps, h1, h3, h4⟩ := h.popStep hn (h2 hn) d
    obtain ⟨fz', ps', z', a1, a2, a3, a4, a5, a6, a7⟩ := ih h4 (by show z.n - 1 = _; omega) (fun _ => Zip.pop_two h.good hn (h2 hn))
    refine ⟨fz', ps', z', by rw [h1, a1], by rw [a2, h3], a3, a4, a5, by rw [a6, Zip.pop_entries h.good hn], fun _ => ?_⟩
    by_cases hj0 : 0 < z.n - 1
    · exact a7 hj0
    · have hd0 : d = 0 := by omega
      subst hd0
      have e : z.n - 1 = j := by omega
      -- no further pop
      have hz : Restore.freezeInternalNodes H 0 ({ r with partialNodes := ps, frozenNodes := fz } : Restore D) = .ok { r with partialNodes := ps, frozenNodes := fz } := rfl
      have hes : (z'.entries).length = ((z.pop v m).entries).length := by rw [a6]
      have e5 : z'.n = 0 := by omega
      have e6 : (z.pop v m).n = 0 := by show z.n - 1 = 0; omega
      simp only [Zip.entries, e5, e6, List.range_zero, List.flatMap_nil, List.nil_append] at hes
      rw [hes]
      exact Zip.pop_two h.good hn (h2 hn)

theorem modify_last {α : Type} {l : List α} {a : α} {f : α → α} {n : Nat} (hn : n = l.length) : (l ++ [a]).modify n f = l ++ [f a] := by
  subst hn
  induction l with
  | nil => rfl
  | cons b l ih => simp [ih]

/-- Putting a new leaf to the right of everything on the last level. -/
theorem Core.put {H : Hasher D} {v : Version} {m : Bool} {z : Zip D} {r : Restore D} (h : Core H v m z false r) {k : Key} (vh : D)
    (hk : k.nibbles.take z.n = z.path z.n) (he : ∀ i, k.nibble z.n ≤ i → z.B i = .empty) :
    Core H v m ⟨k, z.n, z.C, upd z.B (k.nibble z.n) (.leaf v k vh)⟩ true
      { r with partialNodes := r.partialNodes.modify z.n (fun p => p.setChild (k.nibble z.n) (.leaf ⟨k, vh⟩)) } ∧
    Zip.entries ⟨k, z.n, z.C, upd z.B (k.nibble z.n) (.leaf v k vh)⟩ = z.entries ++ [(k, vh)] := by
  have hlt := h.good.lt
  have hpj : ∀ j, j ≤ z.n → k.nibbles.take j = z.path j := fun j hj => Key.take_eq_of_take hk hj
  have hnj : ∀ j, j < z.n → k.nibble j = z.key.nibble j := fun j hj => Key.nibble_eq_of_take (by omega) hk hj
  have g' : Zip.Good v m (⟨k, z.n, z.C, upd z.B (k.nibble z.n) (.leaf v k vh)⟩ : Zip D) := by
    refine ⟨hlt, ?_, h.good.cuni, ?_, ?_, ?_, ?_⟩
    · intro j hj i
      show WF (k.nibbles.take j ++ [i]) _
      rw [hpj j (Nat.le_of_lt hj)]
      exact h.good.cwf j hj i
    · intro j hj i hi
      rw [show (Zip.mk k z.n z.C (upd z.B (k.nibble z.n) (.leaf v k vh))).key.nibble j = k.nibble j from rfl, hnj j hj] at hi
      exact h.good.cemp j hj i hi
    · intro i
      show WF (k.nibbles.take z.n ++ [i]) (upd _ _ _ i)
      by_cases hi : i = k.nibble z.n
      · subst hi
        rw [upd_same, ← Key.take_succ _ hlt]
        exact Key.take_prefix _ _
      · rw [upd_ne _ _ hi, hpj _ (Nat.le_refl _)]
        exact h.good.bwf i
    · intro i
      show Uni v m (upd _ _ _ i)
      by_cases hi : i = k.nibble z.n
      · subst hi; rw [upd_same]; rfl
      · rw [upd_ne _ _ hi]; exact h.good.buni i
    · intro i hi
      show upd _ _ _ i = VTree.empty
      have hi' : k.nibble z.n < i := hi
      rw [upd_ne _ _ (Fin.ne_of_gt hi')]
      exact he i (Nat.le_of_lt hi')
  refine ⟨⟨h.ver, h.mig, ?_, g', ?_, h.disj, h.nodup⟩, ?_⟩
  · show r.partialNodes.modify z.n _ = _
    rw [h.parts]
    unfold Zip.infos
    rw [modify_last (by simp)]
    congr 1
    · apply List.map_congr_left
      intro j hj
      rw [List.mem_range] at hj
      unfold Zip.upInfo Zip.path
      rw [hpj j (Nat.le_of_lt hj), hnj j hj]
      rfl
    · congr 1
      unfold InternalInfo.setChild Zip.botInfo
      congr 1
      · show (⟨v, z.path z.n⟩ : NodeKey) = ⟨v, k.nibbles.take z.n⟩
        rw [hk]
      · funext i
        by_cases hi : i = k.nibble z.n
        · simp [hi, VTree.info]
        · simp [hi, upd]
  · intro nk x
    show r.M nk = some x ↔ _
    rw [h.map]
    simp only [Bool.false_eq_true, false_imp_iff, and_true, true_imp_iff]
    have hF : Zip.Fr H v ⟨k, z.n, z.C, upd z.B (k.nibble z.n) (.leaf v k vh)⟩ nk.path x ↔
        z.Fr H v nk.path x ∨ (nk.path = k.nibbles.take (z.n + 1) ∧ x = .leaf ⟨k, vh⟩) := by
      unfold Zip.Fr
      show ((∃ j, j < z.n ∧ ∃ i q', nk.path = k.nibbles.take j ++ i :: q' ∧ (z.C j i).at? H v q' = some x) ∨
        (∃ i q', nk.path = k.nibbles.take z.n ++ i :: q' ∧ (upd z.B (k.nibble z.n) (.leaf v k vh) i).at? H v q' = some x)) ↔ _
      constructor
      · rintro (⟨j, hj, i, q', h1, h2⟩ | ⟨i, q', h1, h2⟩)
        · exact .inl (.inl ⟨j, hj, i, q', by rw [h1, hpj j (Nat.le_of_lt hj)], h2⟩)
        · by_cases hi : i = k.nibble z.n
          · subst hi
            rw [upd_same, at?_leaf] at h2
            split at h2
            · rename_i hh
              right
              rw [h1, hh.2, Key.take_succ _ hlt]
              exact ⟨rfl, (Option.some.inj h2).symm⟩
            · cases h2
          · rw [upd_ne _ _ hi] at h2
            exact .inl (.inr ⟨i, q', by rw [h1, hk], h2⟩)
      · rintro ((⟨j, hj, i, q', h1, h2⟩ | ⟨i, q', h1, h2⟩) | ⟨h1, h2⟩)
        · exact .inl ⟨j, hj, i, q', by rw [h1, hpj j (Nat.le_of_lt hj)], h2⟩
        · right
          refine ⟨i, q', by rw [h1, hk], ?_⟩
          have : i ≠ k.nibble z.n := by
            rintro rfl
            rw [he _ (Nat.le_refl _)] at h2
            simp at h2
          rw [upd_ne _ _ this]; exact h2
        · right
          refine ⟨k.nibble z.n, [], by rw [h1, Key.take_succ _ hlt], ?_⟩
          rw [upd_same, at?_leaf, if_pos ⟨rfl, rfl⟩, h2]
    rw [hF]
    show _ ↔ nk.version = v ∧ _ ∧ nk.path ≠ k.nibbles.take (z.n + 1)
    constructor
    · rintro ⟨h1, h2⟩
      refine ⟨h1, .inl h2, ?_⟩
      intro hp
      rw [hp] at h2
      rcases h2 with ⟨j, hj, i, q, hq, hx⟩ | ⟨i, q, hq, hx⟩
      · rw [← hpj j (Nat.le_of_lt hj)] at hq
        obtain ⟨_, hi⟩ := path_split (z := ⟨k, z.n, z.C, z.B⟩) (by omega) (by omega) hq
        have hi : i = k.nibble j := hi
        rw [hi, hnj j hj, h.good.cemp j hj _ (Nat.le_refl _)] at hx
        simp at hx
      · rw [← hk] at hq
        obtain ⟨_, hi⟩ := path_split (z := ⟨k, z.n, z.C, z.B⟩) (by omega) hlt hq
        have hi : i = k.nibble z.n := hi
        rw [hi, he _ (Nat.le_refl _)] at hx
        simp at hx
    · rintro ⟨h1, h2 | ⟨h2, _⟩, h3⟩
      · exact ⟨h1, h2⟩
      · exact absurd h2 h3
  · unfold Zip.entries
    show _ ++ esOf (upd z.B (k.nibble z.n) (.leaf v k vh)) _ = _
    rw [esOf_upd_last he, ← List.append_assoc]
    rfl

end Verif.Jmt
