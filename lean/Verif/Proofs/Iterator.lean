import Verif.Jmt.Iterator
import Verif.Proofs.LeafVersion
/-! The iterator walks the entries of the tree in order. -/

set_option autoImplicit false

namespace Verif.Jmt
variable {D : Type}
open VTree Verif.Spec

/-! bitmaps -/

theorem shl_and_eq_zero (i bm : Nat) : (1 <<< i) &&& bm = 0 ↔ bm.testBit i = false := by
  constructor
  · intro h
    have := congrArg (fun x => x.testBit i) h
    simpa [Nat.testBit_and, InternalNode.testBit_one_shiftLeft] using this
  · intro h
    apply Nat.eq_of_testBit_eq
    intro j
    rw [Nat.testBit_and, InternalNode.testBit_one_shiftLeft]
    by_cases hj : i = j
    · subst hj; simp [h]
    · simp [hj]

theorem shl_shl {i : Nat} (h : i + 1 < 16) : ((1 <<< i) <<< 1) % 2 ^ 16 = 1 <<< (i + 1) := by
  rw [← Nat.shiftLeft_add, Nat.mod_eq_of_lt]
  rw [Nat.one_shiftLeft]
  exact Nat.pow_lt_pow_right (by omega) h

theorem scan_spec {bm b : Nat} (hb : bm.testBit b = true) (h16 : b < 16) (fuel i : Nat) (hi : i ≤ b) (hf : b - i < fuel)
    (hno : ∀ j, i ≤ j → j < b → bm.testBit j = false) : NodeVisitInfo.scan bm fuel (1 <<< i) = .ok (1 <<< b) := by
  induction fuel generalizing i with
  | zero => omega
  | succ fuel ih =>
    unfold NodeVisitInfo.scan
    by_cases he : i = b
    · subst he
      rw [if_neg (by rw [shl_and_eq_zero, hb]; simp)]
    · rw [if_pos (by rw [shl_and_eq_zero]; exact hno i (Nat.le_refl _) (by omega)), shl_shl (by omega)]
      exact ih (i + 1) (by omega) (by omega) (fun j h1 h2 => hno j (by omega) h2)

theorem log2_of_top {bm b : Nat} (hb : bm.testBit b = true) (hno : ∀ j, b < j → bm.testBit j = false) : bm.log2 = b := by
  have h1 : bm ≥ 2 ^ b := Nat.ge_two_pow_of_testBit hb
  have h2 : bm < 2 ^ (b + 1) := Nat.lt_pow_two_of_testBit bm (fun j hj => hno j (by omega))
  have h0 : bm ≠ 0 := by have := Nat.two_pow_pos b; omega
  exact (Nat.log2_eq_iff h0).2 ⟨h1, h2⟩

theorem leadingZeros_shl {i : Nat} : leadingZeros16 (1 <<< i) = 15 - i := by
  unfold leadingZeros16
  have : (1 <<< i) ≠ 0 := by rw [Nat.one_shiftLeft]; have := Nat.two_pow_pos i; omega
  rw [if_neg this, Nat.one_shiftLeft, Nat.log2_two_pow]

theorem leadingZeros_top {bm b : Nat} (hb : bm.testBit b = true) (hno : ∀ j, b < j → bm.testBit j = false) :
    leadingZeros16 bm = 15 - b := by
  unfold leadingZeros16
  have : bm ≠ 0 := by intro h; rw [h] at hb; simp at hb
  rw [if_neg this, log2_of_top hb hno]

theorem onlyChildIndex_shl : ∀ i : Nibble, InternalNode.onlyChildIndex (1 <<< i.val) = i := by decide +kernel

/-- The lowest index from `i` on with a property. -/
theorem exists_least {P : Nat → Prop} {i j : Nat} (hij : i ≤ j) (hj : P j) : ∃ b, i ≤ b ∧ b ≤ j ∧ P b ∧ ∀ a, i ≤ a → a < b → ¬ P a := by
  induction hd : j - i generalizing i with
  | zero => exact ⟨j, hij, Nat.le_refl _, hj, by intro a h1 h2; omega⟩
  | succ d ih =>
    by_cases hi : P i
    · exact ⟨i, Nat.le_refl _, hij, hi, by intro a h1 h2; omega⟩
    · obtain ⟨b, h1, h2, h3, h4⟩ := ih (i := i + 1) (by omega) (by omega)
      refine ⟨b, by omega, h2, h3, ?_⟩
      intro a ha hab
      by_cases hai : a = i
      · rw [hai]; exact hi
      · exact h4 a (by omega) hab

/-- The greatest index with a property. -/
theorem exists_greatest {P : Nat → Prop} {i n : Nat} (hi : P i) (hn : ∀ j, P j → j < n) : ∃ b, i ≤ b ∧ P b ∧ ∀ a, b < a → ¬ P a := by
  induction hd : n - i using Nat.strongRecOn generalizing i with
  | ind d ih =>
    by_cases h : ∃ a, i < a ∧ P a
    · obtain ⟨a, h1, h2⟩ := h
      have h3 := hn a h2
      have h4 := hn i hi
      obtain ⟨b, h5, h6, h7⟩ := ih (n - a) (by omega) h2 rfl
      exact ⟨b, by omega, h6, h7⟩
    · exact ⟨i, Nat.le_refl _, hi, fun a ha hp => h ⟨a, ha, hp⟩⟩

/-- The internal node with the given subtrees. -/
abbrev nodeOf (H : Hasher D) (m : Bool) (ch : Nibble → VTree D) : InternalNode D := .ofFun m (fun i => (ch i).child H)

theorem bitmap_nibble (H : Hasher D) (m : Bool) (ch : Nibble → VTree D) (i : Nibble) :
    (nodeOf H m ch).generateBitmaps.1.testBit i.val = !(ch i).isEmpty := by
  rw [(InternalNode.generateBitmaps_testBit _ _).1, InternalNode.exB_iff]
  show ((ch i).child H).isSome = _
  cases hc : ch i <;> rfl

theorem bitmap_big (H : Hasher D) (m : Bool) (ch : Nibble → VTree D) {j : Nat} (h : 16 ≤ j) :
    (nodeOf H m ch).generateBitmaps.1.testBit j = false := by
  rw [(InternalNode.generateBitmaps_testBit _ _).1, Bool.eq_false_iff]
  intro hc
  have := InternalNode.exB_lt hc
  omega

theorem bitmap_some {H : Hasher D} {m : Bool} {ch : Nibble → VTree D} {j : Nat} (h : (nodeOf H m ch).generateBitmaps.1.testBit j = true) :
    ∃ b : Nibble, b.val = j ∧ ch b ≠ .empty := by
  have hj : j < 16 := by
    by_contra hc
    rw [bitmap_big H m ch (by omega)] at h; cases h
  refine ⟨⟨j, hj⟩, rfl, ?_⟩
  intro he
  have := bitmap_nibble H m ch ⟨j, hj⟩
  rw [he] at this
  simp only at this
  rw [h] at this
  cases this

theorem bitmap_true {H : Hasher D} {m : Bool} {ch : Nibble → VTree D} {i : Nibble} (h : ch i ≠ .empty) :
    (nodeOf H m ch).generateBitmaps.1.testBit i.val = true := by
  rw [bitmap_nibble]
  cases hc : (ch i).isEmpty
  · rfl
  · exact absurd (isEmpty_iff.1 hc) h

/-- Indices from `i` on. -/
def fromL (i : Nat) : List Nibble := (List.finRange 16).filter (fun j => decide (i ≤ j.val))

theorem fromL_split : ∀ b : Nibble, ∀ i : Fin 17, i.val ≤ b.val →
    fromL i.val = (List.finRange 16).filter (fun j => decide (i.val ≤ j.val ∧ j.val < b.val)) ++ b :: fromL (b.val + 1) := by
  decide +kernel

theorem mem_fromL {i : Nat} {j : Nibble} : j ∈ fromL i ↔ i ≤ j.val := by simp [fromL]

theorem fromL_zero : fromL 0 = List.finRange 16 := by decide

theorem esOf_nil {ch : Nibble → VTree D} {L : List Nibble} (h : ∀ j ∈ L, ch j = .empty) : esOf ch L = [] := by
  unfold esOf
  rw [List.flatMap_eq_nil_iff]
  intro j hj
  rw [h j hj]; rfl

theorem esOf_append (ch : Nibble → VTree D) (L L' : List Nibble) : esOf ch (L ++ L') = esOf ch L ++ esOf ch L' := by
  simp [esOf]

theorem esOf_cons (ch : Nibble → VTree D) (i : Nibble) (L : List Nibble) : esOf ch (i :: L) = (ch i).entries ++ esOf ch L := by
  simp [esOf]

/-- Skipping empty children. -/
theorem esOf_from {ch : Nibble → VTree D} {i : Nat} {b : Nibble} (hi : i ≤ b.val)
    (hno : ∀ j : Nibble, i ≤ j.val → j.val < b.val → ch j = .empty) :
    esOf ch (fromL i) = (ch b).entries ++ esOf ch (fromL (b.val + 1)) := by
  rw [fromL_split b ⟨i, by omega⟩ hi, esOf_append, esOf_cons, esOf_nil, List.nil_append]
  intro j hj
  simp at hj
  exact hno j hj.1 hj.2

theorem entries_node (v : Version) (m : Bool) (ch : Nibble → VTree D) : (VTree.node v m ch).entries = esOf ch (fromL 0) := by
  rw [fromL_zero]; rfl

/-! frames -/

/-- A subtree whose nodes and values can be read. -/
structure Good (H : Hasher D) (r : Reader D) (f : Key → Option Value) (p : List Nibble) (t : VTree D) : Prop where
  wf : WF p t
  has : HasTree H r p t
  value : ∀ v q l, t.at? H v q = some (.leaf l) → r.getValueOption v l.keyHash = f l.keyHash ∧ (f l.keyHash).isSome = true

theorem Good.child {H : Hasher D} {r : Reader D} {f : Key → Option Value} {p : List Nibble} {v : Version} {m : Bool}
    {ch : Nibble → VTree D} (h : Good H r f p (.node v m ch)) (i : Nibble) : Good H r f (p ++ [i]) (ch i) :=
  ⟨h.wf.1 i, h.has.child i, fun v' q l hl => h.value v' (i :: q) l (by rw [at?_node_cons]; exact hl)⟩

/-- The visit record of an internal node whose child `i` is visited next. -/
structure Frame (H : Hasher D) (r : Reader D) (f : Key → Option Value) (info : NodeVisitInfo D) (p : List Nibble)
    (ch : Nibble → VTree D) (i : Nibble) : Prop where
  good : ∃ v m, Good H r f p (.node v m ch) ∧ info = ⟨⟨v, p⟩, nodeOf H m ch, (nodeOf H m ch).generateBitmaps.1, 1 <<< i.val⟩
  here : ch i ≠ .empty

/-- A stack of records; the list is what remains after the current children. -/
inductive Frames (H : Hasher D) (r : Reader D) (f : Key → Option Value) : List (NodeVisitInfo D) → List (Key × D) → Prop
  | nil : Frames H r f [] []
  | cons {info st p ch i R} (hf : Frame H r f info p ch i) (hs : Frames H r f st R) :
      Frames H r f (info :: st) (esOf ch (fromL (i.val + 1)) ++ R)

/-- The current child at the top of the stack is `t`; `R` is what remains after it. -/
def Ready (H : Hasher D) (r : Reader D) (f : Key → Option Value) (st : List (NodeVisitInfo D)) (p : List Nibble) (t : VTree D)
    (R : List (Key × D)) : Prop :=
  ∃ info st' p' ch i R', st = info :: st' ∧ Frame H r f info p' ch i ∧ Frames H r f st' R' ∧ ch i = t ∧ p = p' ++ [i] ∧
    R = esOf ch (fromL (i.val + 1)) ++ R'

theorem Ready.frames {H : Hasher D} {r : Reader D} {f : Key → Option Value} {st : List (NodeVisitInfo D)} {p : List Nibble}
    {t : VTree D} {R : List (Key × D)} (h : Ready H r f st p t R) : Frames H r f st R := by
  obtain ⟨info, st', p', ch, i, R', rfl, hf, hs, rfl, rfl, rfl⟩ := h
  exact .cons hf hs

theorem Frame.isRightmost {H : Hasher D} {r : Reader D} {f : Key → Option Value} {info : NodeVisitInfo D} {p : List Nibble}
    {ch : Nibble → VTree D} {i : Nibble} (h : Frame H r f info p ch i) :
    (info.isRightmost = .ok true ∧ ∀ j : Nibble, i < j → ch j = .empty) ∨
    (info.isRightmost = .ok false ∧ ∃ j : Nibble, i < j ∧ ch j ≠ .empty) := by
  obtain ⟨⟨v, m, _, rfl⟩, hi⟩ := h
  obtain ⟨b, hib, hb, htop⟩ := exists_greatest (P := fun j => (nodeOf H m ch).generateBitmaps.1.testBit j = true) (n := 16)
    (bitmap_true hi) (fun j hj => by
      by_contra hc
      rw [bitmap_big H m ch (by omega)] at hj; cases hj)
  obtain ⟨b, rfl, hbe⟩ := bitmap_some hb
  have hlz := leadingZeros_top hb (fun j hj => by simpa using htop j hj)
  unfold NodeVisitInfo.isRightmost
  simp only [hlz, leadingZeros_shl]
  have hbl := b.isLt
  by_cases he : b = i
  · left
    subst he
    refine ⟨by simp [assert], ?_⟩
    intro j hj
    by_contra hne
    exact htop j.val hj (bitmap_true hne)
  · right
    have hlt : i.val < b.val := by
      have : b.val ≠ i.val := fun h => he (Fin.ext h)
      omega
    refine ⟨?_, b, hlt, hbe⟩
    have : ((15 - i.val == 15 - b.val) : Bool) = false := by
      rw [beq_eq_false_iff_ne]; omega
    rw [this]
    simp [assert, show 15 - b.val ≤ 15 - i.val by omega]

theorem Frame.advance {H : Hasher D} {r : Reader D} {f : Key → Option Value} {info : NodeVisitInfo D} {p : List Nibble}
    {ch : Nibble → VTree D} {i : Nibble} (h : Frame H r f info p ch i) (hr : info.isRightmost = .ok false) {j : Nibble} (hij : i < j)
    (hj : ch j ≠ .empty) : ∃ info' b, info.advance = .ok info' ∧ Frame H r f info' p ch b ∧
      esOf ch (fromL (i.val + 1)) = (ch b).entries ++ esOf ch (fromL (b.val + 1)) := by
  obtain ⟨⟨v, m, hg, rfl⟩, hi⟩ := h
  obtain ⟨b, hib, hbj, hb, hleast⟩ := exists_least (P := fun j => (nodeOf H m ch).generateBitmaps.1.testBit j = true) (i := i.val + 1)
    (j := j.val) hij (bitmap_true hj)
  obtain ⟨b, rfl, hbe⟩ := bitmap_some hb
  refine ⟨_, b, ?_, ⟨⟨v, m, hg, rfl⟩, hbe⟩, esOf_from hib ?_⟩
  · have hbl := b.isLt
    unfold NodeVisitInfo.advance
    rw [hr]
    simp only [shl_shl (show i.val + 1 < 16 by omega)]
    have hsc := scan_spec hb b.isLt 17 (i.val + 1) hib (by omega) (fun a h1 h2 => by simpa using hleast a h1 h2)
    simp only [bind, Except.bind, assert, Bool.not_false, if_true, pure, Except.pure]
    rw [hsc]
  · intro a h1 h2
    by_contra hne
    exact hleast a.val h1 h2 (bitmap_true hne)

theorem cleanupStack_spec {H : Hasher D} {r : Reader D} {f : Key → Option Value} {st : List (NodeVisitInfo D)} {R : List (Key × D)}
    (h : Frames H r f st R) : ∃ st', Iter.cleanupStack st = .ok st' ∧
      ((st' = [] ∧ R = []) ∨ ∃ p t R', Ready H r f st' p t R' ∧ R = t.entries ++ R') := by
  induction h with
  | nil => exact ⟨[], rfl, .inl ⟨rfl, rfl⟩⟩
  | @cons info st p ch i R hf hs ih =>
    rcases hf.isRightmost with ⟨h1, h2⟩ | ⟨h1, j, h2, h3⟩
    · obtain ⟨st', e1, e2⟩ := ih
      refine ⟨st', ?_, ?_⟩
      · unfold Iter.cleanupStack
        rw [h1]; exact e1
      · rw [esOf_nil (fun j hj => h2 j (by rw [mem_fromL] at hj; exact hj)), List.nil_append]
        exact e2
    · obtain ⟨info', b, e1, e2, e3⟩ := hf.advance h1 h2 h3
      refine ⟨info' :: st, ?_, .inr ⟨p ++ [b], ch b, esOf ch (fromL (b.val + 1)) ++ R, ?_, ?_⟩⟩
      · unfold Iter.cleanupStack
        rw [h1]
        simp only [bind, Except.bind, Bool.false_eq_true, if_false]
        rw [e1]; rfl
      · exact ⟨info', st, p, ch, b, R, rfl, e2, hs, rfl, rfl, rfl⟩
      · rw [e3, List.append_assoc]


/-! `next` -/

theorem childOf_version {H : Hasher D} {t : VTree D} {c : Child D} (h : t.child H = some c) : c.version = t.version := by
  cases t with
  | empty => simp [VTree.child] at h
  | leaf => simp only [VTree.child, Option.some.injEq] at h; subst h; rfl
  | node => simp only [VTree.child, Option.some.injEq] at h; subst h; rfl

theorem getNode_of {r : Reader D} {nk : NodeKey} {n : Node D} (h : r.getNodeOption nk = some n) : r.getNode nk = .ok n := by
  unfold Reader.getNode; rw [h]

theorem getValue_of {r : Reader D} {v : Version} {k : Key} {x : Value} (h : r.getValueOption v k = some x) : r.getValue v k = .ok x := by
  unfold Reader.getValue; rw [h]

/-- What is left of an iteration: nothing on the stack, or a current child. -/
def Left (H : Hasher D) (r : Reader D) (f : Key → Option Value) (st : List (NodeVisitInfo D)) (E : List (Key × D)) : Prop :=
  (st = [] ∧ E = []) ∨ ∃ p t R, Ready H r f st p t R ∧ E = t.entries ++ R

theorem Good.newInfo {H : Hasher D} {r : Reader D} {f : Key → Option Value} {p : List Nibble} {v : Version} {m : Bool}
    {ch : Nibble → VTree D} (h : Good H r f p (.node v m ch)) (i j : Nibble) (hij : i ≤ j) (hj : ch j ≠ .empty) :
    ∃ info b, NodeVisitInfo.newNextChildToVisit ⟨v, p⟩ (nodeOf H m ch) i = .ok info ∧ Frame H r f info p ch b ∧ (ch i ≠ .empty → b = i) ∧
      esOf ch (fromL i.val) = (ch b).entries ++ esOf ch (fromL (b.val + 1)) := by
  obtain ⟨b, hib, hbj, hb, hleast⟩ := exists_least (P := fun j => (nodeOf H m ch).generateBitmaps.1.testBit j = true) (i := i.val)
    (j := j.val) hij (bitmap_true hj)
  obtain ⟨b, rfl, hbe⟩ := bitmap_some hb
  refine ⟨_, b, ?_, ⟨⟨v, m, h, rfl⟩, hbe⟩, ?_, esOf_from hib ?_⟩
  · have hbl := b.isLt
    unfold NodeVisitInfo.newNextChildToVisit
    have hsc := scan_spec hb b.isLt 17 i.val hib (by omega) (fun a h1 h2 => by simpa using hleast a h1 h2)
    have hge : (nodeOf H m ch).generateBitmaps.1 ≥ 1 <<< i.val := by
      rw [Nat.one_shiftLeft]
      exact Nat.le_trans (Nat.pow_le_pow_right (by omega) hib) (Nat.ge_two_pow_of_testBit hb)
    simp only [bind, Except.bind, assert, hge, decide_true, if_true, pure, Except.pure]
    rw [hsc]
  · intro hie
    by_contra hne
    have : b.val ≠ i.val := fun h => hne (Fin.ext h)
    exact hleast i.val (Nat.le_refl _) (by omega) (bitmap_true hie)
  · intro a h1 h2
    by_contra hne
    exact hleast a.val h1 h2 (bitmap_true hne)

theorem trailingZeros_eq {bm b : Nat} (hb : bm.testBit b = true) (h16 : b < 16) (hno : ∀ j, j < b → bm.testBit j = false) :
    InternalNode.trailingZeros bm = b := by
  unfold InternalNode.trailingZeros
  have : (List.range 16).find? bm.testBit = some b := by
    rw [List.find?_eq_some_iff_getElem]
    refine ⟨hb, b, by simpa using h16, by simp, ?_⟩
    intro j hj
    simp [hno j hj]
  rw [this]; rfl

theorem Good.newFirst {H : Hasher D} {r : Reader D} {f : Key → Option Value} {p : List Nibble} {v : Version} {m : Bool}
    {ch : Nibble → VTree D} (h : Good H r f p (.node v m ch)) :
    ∃ info b, NodeVisitInfo.new ⟨v, p⟩ (nodeOf H m ch) = .ok info ∧ Frame H r f info p ch b ∧
      (VTree.node v m ch).entries = (ch b).entries ++ esOf ch (fromL (b.val + 1)) := by
  obtain ⟨j, hj⟩ := exists_child_of_node h.wf
  obtain ⟨b, hib, hbj, hb, hleast⟩ := exists_least (P := fun j => (nodeOf H m ch).generateBitmaps.1.testBit j = true) (i := 0)
    (j := j.val) (by omega) (bitmap_true hj)
  obtain ⟨b, rfl, hbe⟩ := bitmap_some hb
  refine ⟨_, b, ?_, ⟨⟨v, m, h, rfl⟩, hbe⟩, ?_⟩
  · unfold NodeVisitInfo.new
    have hbl := b.isLt
    have hne : (nodeOf H m ch).generateBitmaps.1 ≠ 0 := by intro h0; rw [h0] at hb; simp at hb
    have htz := trailingZeros_eq hb hbl (fun a h2 => by simpa using hleast a (by omega) h2)
    have hmod : 1 <<< b.val % 2 ^ 16 = 1 <<< b.val := by
      apply Nat.mod_eq_of_lt
      rw [Nat.one_shiftLeft]
      exact Nat.pow_lt_pow_right (by omega) hbl
    simp only [bind, Except.bind, assert, hne, ne_eq, not_false_eq_true, decide_true, if_true, pure, Except.pure, htz]
    rw [hmod]
  · rw [entries_node]
    apply esOf_from (by omega)
    intro a h1 h2
    by_contra hne
    exact hleast a.val h1 h2 (bitmap_true hne)

theorem nextLoop_spec {H : Hasher D} {r : Reader D} {f : Key → Option Value} (ver : Version) (t : VTree D) :
    ∀ (fuel : Nat) (st : List (NodeVisitInfo D)) (p : List Nibble) (R : List (Key × D)), Ready H r f st p t R → 65 < fuel + p.length →
    ∃ e E' x st', t.entries ++ R = e :: E' ∧ f e.1 = some x ∧
      Iter.nextLoop r ver fuel st = .ok (some (.ok (e.1, x)), ⟨ver, st', false⟩) ∧ Left H r f st' E' := by
  induction t with
  | empty =>
    intro fuel st p R h
    obtain ⟨info, st', p', ch, i, R', rfl, hf, hs, he, rfl, rfl⟩ := h
    exact absurd he hf.here
  | leaf w k x =>
    intro fuel st p R h hfu
    have hfr := h.frames
    obtain ⟨info, st', p', ch, i, R', rfl, hf, hs, he, rfl, rfl⟩ := h
    obtain ⟨⟨v, m, hg, rfl⟩, hne⟩ := hf
    have hlen := wf_node_length hg.wf
    have hgi := hg.child i
    rw [he] at hgi hne
    obtain ⟨st2, hcl, hleft⟩ := cleanupStack_spec hfr
    obtain ⟨y, hy⟩ := Option.isSome_iff_exists.1 (hgi.value w [] ⟨k, x⟩ (by simp [at?_leaf])).2
    have hval := (hgi.value w [] ⟨k, x⟩ (by simp [at?_leaf])).1
    refine ⟨(k, x), _, y, st2, rfl, hy, ?_, ?_⟩
    · obtain ⟨fuel, rfl⟩ : ∃ f', fuel = f' + 1 := ⟨fuel - 1, by simp at hfu; omega⟩
      unfold Iter.nextLoop
      simp only [onlyChildIndex_shl]
      have hc : (nodeOf H m ch).child i = some ⟨H.leaf k x, w, .leaf⟩ := by
        show (ch i).child H = _
        rw [he]; rfl
      rw [hc]
      simp only [NodeKey.genChild, rootNibbleHeight, hlen, if_true]
      have hn := hgi.has.root hne
      simp only [version_leaf] at hn
      rw [getNode_of hn]
      simp only [toNode]
      rw [getValue_of (hval.trans hy)]
      simp only
      rw [hcl]
    · rcases hleft with ⟨h1, h2⟩ | ⟨p, t, R', h1, h2⟩
      · exact .inl ⟨h1, h2⟩
      · exact .inr ⟨p, t, R', h1, h2⟩
  | node w mm cch ih =>
    intro fuel st p R h hfu
    have hfr := h.frames
    obtain ⟨info, st', p', ch, i, R', rfl, hf, hs, he, rfl, rfl⟩ := h
    have hf' := hf
    obtain ⟨⟨v, m, hg, rfl⟩, hne⟩ := hf
    have hlen := wf_node_length hg.wf
    have hgi := hg.child i
    rw [he] at hgi hne
    obtain ⟨info', b, e1, e2, e3⟩ := hgi.newFirst
    have hlen' := wf_node_length hgi.wf
    obtain ⟨fuel, rfl⟩ : ∃ f', fuel = f' + 1 := ⟨fuel - 1, by simp at hfu hlen'; omega⟩
    have hready : Ready H r f (info' :: _ :: st') (p' ++ [i] ++ [b]) (cch b)
        (esOf cch (fromL (b.val + 1)) ++ (esOf ch (fromL (i.val + 1)) ++ R')) :=
      ⟨info', _, p' ++ [i], cch, b, _, rfl, e2, hfr, rfl, rfl, rfl⟩
    obtain ⟨e, E', x, st2, h1, h2, h3, h4⟩ := ih b fuel _ _ _ hready (by simp at hfu ⊢; omega)
    refine ⟨e, E', x, st2, ?_, h2, ?_, h4⟩
    · rw [e3, List.append_assoc]; exact h1
    · unfold Iter.nextLoop
      simp only [onlyChildIndex_shl]
      have hc : ∃ c, (nodeOf H m ch).child i = some c ∧ c.version = w := by
        show ∃ c, (ch i).child H = some c ∧ _
        rw [he]
        exact ⟨_, rfl, rfl⟩
      obtain ⟨c, hc, hcv⟩ := hc
      rw [hc]
      simp only [NodeKey.genChild, rootNibbleHeight, hlen, if_true, hcv]
      have hn := hgi.has.root hne
      simp only [version_node] at hn
      rw [getNode_of hn]
      simp only [toNode]
      rw [e1]
      exact h3

/-- The iterator has the entries `E` of the tree still to yield. -/
inductive ItOk (H : Hasher D) (r : Reader D) (f : Key → Option Value) (v : Version) (t : VTree D) : Iter D → List (Key × D) → Prop
  | done (it : Iter D) (h : it.done = true) : ItOk H r f v t it []
  | leaf (hl : t.isLeaf = true) : ItOk H r f v t ⟨v, [], false⟩ t.entries
  | stack (st : List (NodeVisitInfo D)) (E : List (Key × D)) (hn : t.isLeaf = false) (hne : t ≠ .empty) (h : Left H r f st E) :
      ItOk H r f v t ⟨v, st, false⟩ E

theorem next_nil {H : Hasher D} {r : Reader D} {f : Key → Option Value} {v : Version} {t : VTree D} {it : Iter D}
    (hroot : r.getNodeOption ⟨v, []⟩ = some (t.toNode H)) {E : List (Key × D)} (h : ItOk H r f v t it E) (hE : E = []) :
    it.next r = .ok (none, it) := by
  cases h with
  | done _ hd => unfold Iter.next; rw [if_pos hd]
  | leaf hl =>
    cases t with
    | leaf => simp [entries] at hE
    | empty => simp [VTree.isLeaf] at hl
    | node => simp [VTree.isLeaf] at hl
  | stack st E hn hne h =>
    subst hE
    rcases h with ⟨rfl, _⟩ | ⟨p, t', R, hr, he⟩
    · unfold Iter.next Iter.nextRoot
      simp only [Bool.false_eq_true, if_false, List.isEmpty_nil, if_true, NodeKey.newEmptyPath]
      rw [getNode_of hroot]
      cases t with
      | empty => exact absurd rfl hne
      | leaf => simp [VTree.isLeaf] at hn
      | node => rfl
    · obtain ⟨info, st', p', ch, i, R', rfl, hf, hs, he', rfl, rfl⟩ := hr
      obtain ⟨⟨w, m, hg, rfl⟩, hne'⟩ := hf
      have h0 : t'.entries = [] := (List.append_eq_nil_iff.1 he.symm).1
      rw [← he'] at h0
      exact absurd ((entries_eq_nil (hg.child i).wf).1 h0) hne'

theorem next_cons {H : Hasher D} {r : Reader D} {f : Key → Option Value} {v : Version} {t : VTree D} {it : Iter D}
    (hroot : r.getNodeOption ⟨v, []⟩ = some (t.toNode H)) (hval : ∀ k, r.getValueOption v k = f k)
    (hf : ∀ k x, (k, x) ∈ t.entries → (f k).isSome = true)
    {E : List (Key × D)} (h : ItOk H r f v t it E) {e : Key × D} {E' : List (Key × D)} (hE : E = e :: E') :
    ∃ x it', f e.1 = some x ∧ it.next r = .ok (some (.ok (e.1, x)), it') ∧ ItOk H r f v t it' E' := by
  cases h with
  | done _ hd => cases hE
  | leaf hl =>
    cases t with
    | empty => simp [VTree.isLeaf] at hl
    | node => simp [VTree.isLeaf] at hl
    | leaf w k y =>
      simp only [entries, List.cons.injEq] at hE
      obtain ⟨rfl, rfl⟩ := hE
      obtain ⟨x, hx⟩ := Option.isSome_iff_exists.1 (hf k y (by simp [entries]))
      refine ⟨x, _, hx, ?_, .done ⟨v, [], true⟩ rfl⟩
      unfold Iter.next Iter.nextRoot
      simp only [Bool.false_eq_true, if_false, List.isEmpty_nil, if_true, NodeKey.newEmptyPath]
      rw [getNode_of hroot]
      simp only [toNode]
      rw [getValue_of ((hval k).trans hx)]
      rfl
  | stack st E hn hne h =>
    subst hE
    rcases h with ⟨rfl, h0⟩ | ⟨p, t', R, hr, he⟩
    · cases h0
    · have hst : st.isEmpty = false := by
        obtain ⟨info, st', p', ch, i, R', rfl, _⟩ := hr
        rfl
      obtain ⟨e1, E1, x, st2, h1, h2, h3, h4⟩ := nextLoop_spec v t' 66 st p R hr (by
        obtain ⟨info, st', p', ch, i, R', _, _, _, _, hp, _⟩ := hr
        rw [hp]; simp; omega)
      rw [h1] at he
      cases he
      refine ⟨x, _, h2, ?_, .stack st2 E' hn hne h4⟩
      unfold Iter.next
      simp only [Bool.false_eq_true, if_false, hst]
      exact h3

/-! `new` -/

/-- Entries from a key on. -/
def geq (s : Key) (E : List (Key × D)) : List (Key × D) := E.filter (fun e => decide (s ≤ e.1))

theorem Key.lt_asymm {a b : Key} (h : a < b) : ¬ b < a := List.lt_asymm h

theorem geq_esOf_above {ch : Nibble → VTree D} {p rest : List Nibble} {s : Key} {i : Nibble} (hw : ∀ j, WF (p ++ [j]) (ch j))
    (hs : s.nibbles = p ++ i :: rest) {L : List Nibble} (hL : ∀ j ∈ L, i < j) : geq s (esOf ch L) = esOf ch L := by
  unfold geq
  rw [List.filter_eq_self]
  intro e he
  unfold esOf at he
  obtain ⟨j, hj, he⟩ := List.mem_flatMap.1 he
  have h1 : p ++ [i] <+: s.nibbles := ⟨rest, by rw [hs]; simp⟩
  exact decide_eq_true (Key.lt_asymm (prefix_snoc_lt h1 (mem_entries_prefix (hw j) he) (hL j hj)))

theorem geq_esOf_below {ch : Nibble → VTree D} {p rest : List Nibble} {s : Key} {i : Nibble} (hw : ∀ j, WF (p ++ [j]) (ch j))
    (hs : s.nibbles = p ++ i :: rest) {L : List Nibble} (hL : ∀ j ∈ L, j < i) : geq s (esOf ch L) = [] := by
  unfold geq
  rw [List.filter_eq_nil_iff]
  intro e he
  unfold esOf at he
  obtain ⟨j, hj, he⟩ := List.mem_flatMap.1 he
  have h1 : p ++ [i] <+: s.nibbles := ⟨rest, by rw [hs]; simp⟩
  rw [decide_eq_true_eq]
  intro hc
  exact hc (prefix_snoc_lt (mem_entries_prefix (hw j) he) h1 (hL j hj))

theorem fromL_zero_split : ∀ i : Nibble, fromL 0 = (List.finRange 16).filter (fun j => decide (j < i)) ++ i :: fromL (i.val + 1) := by
  decide +kernel

theorem geq_append (s : Key) (E E' : List (Key × D)) : geq s (E ++ E') = geq s E ++ geq s E' := by simp [geq]

/-- Entries of a node from a key below it on. -/
theorem geq_node {v : Version} {m : Bool} {ch : Nibble → VTree D} {p rest : List Nibble} {s : Key} {i : Nibble}
    (hw : ∀ j, WF (p ++ [j]) (ch j)) (hs : s.nibbles = p ++ i :: rest) :
    geq s (VTree.node v m ch).entries = geq s (ch i).entries ++ esOf ch (fromL (i.val + 1)) := by
  rw [entries_node, fromL_zero_split i, esOf_append, esOf_cons, geq_append, geq_append, geq_esOf_below hw hs (by simp),
    List.nil_append, geq_esOf_above hw hs (fun j hj => by rw [mem_fromL] at hj; exact hj)]

/-- The stack reached on the way down to the subtree `t` of `t0`. -/
def OnWay (H : Hasher D) (r : Reader D) (f : Key → Option Value) (t0 : VTree D) (st : List (NodeVisitInfo D)) (p : List Nibble)
    (t : VTree D) (R : List (Key × D)) : Prop :=
  (st = [] ∧ R = [] ∧ t = t0 ∧ p = []) ∨ (Ready H r f st p t R ∧ t0.isLeaf = false ∧ t0 ≠ .empty)

theorem OnWay.frames {H : Hasher D} {r : Reader D} {f : Key → Option Value} {t0 : VTree D} {st : List (NodeVisitInfo D)}
    {p : List Nibble} {t : VTree D} {R : List (Key × D)} (h : OnWay H r f t0 st p t R) : Frames H r f st R := by
  rcases h with ⟨rfl, rfl, _⟩ | ⟨h, _⟩
  · exact .nil
  · exact h.frames

theorem OnWay.node {H : Hasher D} {r : Reader D} {f : Key → Option Value} {t0 : VTree D} {st : List (NodeVisitInfo D)}
    {p : List Nibble} {v : Version} {m : Bool} {ch : Nibble → VTree D} {R : List (Key × D)}
    (h : OnWay H r f t0 st p (.node v m ch) R) : t0.isLeaf = false ∧ t0 ≠ .empty := by
  rcases h with ⟨_, _, rfl, _⟩ | ⟨_, h⟩
  · exact ⟨rfl, by simp⟩
  · exact h

theorem OnWay.push {H : Hasher D} {r : Reader D} {f : Key → Option Value} {t0 : VTree D} {st : List (NodeVisitInfo D)}
    {p : List Nibble} {v : Version} {m : Bool} {ch : Nibble → VTree D} {R : List (Key × D)}
    (h : OnWay H r f t0 st p (.node v m ch) R) {info : NodeVisitInfo D} {i : Nibble} (hf : Frame H r f info p ch i) :
    OnWay H r f t0 (info :: st) (p ++ [i]) (ch i) (esOf ch (fromL (i.val + 1)) ++ R) :=
  .inr ⟨⟨info, st, p, ch, i, R, rfl, hf, h.frames, rfl, rfl, rfl⟩, h.node⟩

theorem newAbsent_spec {H : Hasher D} {r : Reader D} {f : Key → Option Value} {ver : Version} {t0 : VTree D}
    {v : Version} {m : Bool} {ch : Nibble → VTree D} {p : List Nibble} {i : Nibble} {st : List (NodeVisitInfo D)} {R : List (Key × D)}
    (hg : Good H r f p (.node v m ch)) (hi : ch i = .empty) (hw : OnWay H r f t0 st p (.node v m ch) R) :
    ∃ it, Iter.newAbsent ver ⟨v, p⟩ (nodeOf H m ch) i st = .ok it ∧ ItOk H r f ver t0 it (esOf ch (fromL (i.val + 1)) ++ R) := by
  obtain ⟨j, hj⟩ := exists_child_of_node hg.wf
  obtain ⟨b, _, hb, htop⟩ := exists_greatest (P := fun j => (nodeOf H m ch).generateBitmaps.1.testBit j = true) (n := 16)
    (bitmap_true hj) (fun j hj => by
      by_contra hc
      rw [bitmap_big H m ch (by omega)] at hj; cases hj)
  obtain ⟨b, rfl, hbe⟩ := bitmap_some hb
  have hlz := leadingZeros_top hb (fun j hj => by simpa using htop j hj)
  have hbl := b.isLt
  have hlz2 : 15 - (15 - b.val) = b.val := by omega
  have hne0 : (nodeOf H m ch).generateBitmaps.1 ≠ 0 := by
    intro h0
    rw [h0] at hb
    simp at hb
  unfold Iter.newAbsent
  simp only [if_neg hne0, hlz, hlz2]
  by_cases hlt : i.val < b.val
  · obtain ⟨info, b', e1, e2, _, e4⟩ := hg.newInfo i b (Nat.le_of_lt hlt) hbe
    have e5 : esOf ch (fromL i.val) = esOf ch (fromL (i.val + 1)) := by
      have := esOf_from (ch := ch) (i := i.val) (b := i) (Nat.le_refl _) (by intro j h1 h2; omega)
      rw [this, hi]; rfl
    refine ⟨⟨ver, info :: st, false⟩, ?_, .stack _ _ hw.node.1 hw.node.2 (.inr ?_)⟩
    · rw [if_pos hlt, e1]; rfl
    · refine ⟨p ++ [b'], ch b', esOf ch (fromL (b'.val + 1)) ++ R, ⟨info, st, p, ch, b', R, rfl, e2, hw.frames, rfl, rfl, rfl⟩, ?_⟩
      rw [← e5, e4, List.append_assoc]
  · obtain ⟨st', e1, e2⟩ := cleanupStack_spec hw.frames
    refine ⟨⟨ver, st', false⟩, ?_, .stack _ _ hw.node.1 hw.node.2 ?_⟩
    · rw [if_neg hlt, e1]; rfl
    · have : esOf ch (fromL (i.val + 1)) = [] := by
        apply esOf_nil
        intro j hj
        rw [mem_fromL] at hj
        by_contra hne
        exact htop j.val (by omega) (bitmap_true hne)
      rw [this, List.nil_append]
      exact e2

theorem newBottom_spec {H : Hasher D} {r : Reader D} {f : Key → Option Value} {ver : Version} {t0 : VTree D} {s : Key}
    {w : Version} {k : Key} {x : D} {p : List Nibble} {st : List (NodeVisitInfo D)} {R : List (Key × D)}
    (hn : r.getNodeOption ⟨w, p⟩ = some (.leaf ⟨k, x⟩)) (hw : OnWay H r f t0 st p (.leaf w k x) R) :
    ∃ it, Iter.newBottom r ver s ⟨w, p⟩ st = .ok it ∧ ItOk H r f ver t0 it (geq s [(k, x)] ++ R) := by
  unfold Iter.newBottom
  rw [getNode_of hn]
  simp only [bind, Except.bind]
  by_cases hlt : k < s
  · have hge : geq s [(k, x)] = [] := by
      unfold geq
      rw [List.filter_eq_nil_iff]
      intro e he
      rw [List.mem_singleton] at he
      rw [he, decide_eq_true_eq]
      exact fun hc => hc hlt
    obtain ⟨st', e1, e2⟩ := cleanupStack_spec hw.frames
    rw [if_pos hlt, e1, hge, List.nil_append]
    refine ⟨_, rfl, ?_⟩
    rcases e2 with ⟨rfl, rfl⟩ | h
    · exact .done _ rfl
    · have hne : st'.isEmpty = false := by
        obtain ⟨_, _, _, ⟨info, st'', _, _, _, _, rfl, _⟩, _⟩ := h
        rfl
      rw [hne]
      rcases hw with ⟨_, rfl, _, _⟩ | ⟨hw1, hw2, hw3⟩
      · obtain ⟨p', t', R', h1, h2⟩ := h
        obtain ⟨info, st'', p'', ch, i, R'', _, hf, _, he, _, _⟩ := h1
        obtain ⟨⟨w, m, hg, rfl⟩, hne'⟩ := hf
        have h0 : t'.entries = [] := (List.append_eq_nil_iff.1 h2.symm).1
        rw [← he] at h0
        exact absurd ((entries_eq_nil (hg.child i).wf).1 h0) hne'
      · exact .stack _ _ hw2 hw3 (.inr h)
  · have hge : geq s [(k, x)] = [(k, x)] := by
      unfold geq
      rw [List.filter_eq_self]
      intro e he
      rw [List.mem_singleton] at he
      rw [he, decide_eq_true_eq]
      exact hlt
    rw [if_neg hlt, hge]
    refine ⟨_, rfl, ?_⟩
    rcases hw with ⟨rfl, rfl, rfl, _⟩ | ⟨hw1, hw2, hw3⟩
    · exact .leaf rfl
    · exact .stack _ _ hw2 hw3 (.inr ⟨p, _, R, hw1, rfl⟩)

theorem newLoop_spec {H : Hasher D} {r : Reader D} {f : Key → Option Value} {ver : Version} {t0 : VTree D} {s : Key} (t : VTree D) :
    ∀ (p rest : List Nibble) (st : List (NodeVisitInfo D)) (R : List (Key × D)), Good H r f p t → t ≠ .empty → s.nibbles = p ++ rest →
      OnWay H r f t0 st p t R →
      ∃ it, Iter.newLoop r ver s rest ⟨t.version, p⟩ st = .ok it ∧ ItOk H r f ver t0 it (geq s t.entries ++ R) := by
  induction t with
  | empty => intro p rest st R _ h; exact absurd rfl h
  | leaf w k x =>
    intro p rest st R hg hne hs hw
    have hn := hg.has.root hne
    simp only [version_leaf, toNode] at hn
    obtain ⟨it, e1, e2⟩ := newBottom_spec (ver := ver) (s := s) hn hw
    refine ⟨it, ?_, e2⟩
    unfold Iter.newLoop
    simp only [version_leaf]
    rw [getNode_of hn]
    exact e1
  | node w m ch ih =>
    intro p rest st R hg hne hs hw
    have hn := hg.has.root hne
    simp only [version_node, toNode] at hn
    have hlen := wf_node_length hg.wf
    match rest, hs with
    | [], hs =>
      have : s.nibbles.length = 64 := by simp
      rw [hs] at this; simp at this; omega
    | i :: rest, hs =>
      rw [geq_node hg.wf.1 hs]
      unfold Iter.newLoop
      simp only [version_node]
      rw [getNode_of hn]
      simp only
      by_cases hi : ch i = .empty
      · have hc : (nodeOf H m ch).child i = none := by
          show (ch i).child H = none
          rw [hi]; rfl
        rw [hc, hi]
        exact newAbsent_spec hg hi hw
      · have hc : ∃ c, (nodeOf H m ch).child i = some c ∧ c.version = (ch i).version := by
          show ∃ c, (ch i).child H = some c ∧ _
          obtain ⟨c, hc⟩ := Option.isSome_iff_exists.1 (child_isSome (H := H).2 hi)
          exact ⟨c, hc, childOf_version hc⟩
        obtain ⟨c, hc, hcv⟩ := hc
        rw [hc]
        obtain ⟨info, b, e1, e2, e3, _⟩ := hg.newInfo i i (Nat.le_refl _) hi
        cases e3 hi
        simp only
        rw [e1]
        simp only [NodeKey.genChild, rootNibbleHeight, hlen, if_true, hcv]
        rw [List.append_assoc]
        exact ih i (p ++ [i]) rest (info :: st) _ (hg.child i) hi (by simp [hs]) (hw.push e2)

theorem new_spec {H : Hasher D} {r : Reader D} {f : Key → Option Value} {ver : Version} {t : VTree D} (s : Key)
    (hg : Good H r f [] t) (hroot : r.getNodeOption ⟨ver, []⟩ = some (t.toNode H)) (hv : t ≠ .empty → t.version = ver) :
    ∃ it, Iter.new r ver s = .ok it ∧ ItOk H r f ver t it (geq s t.entries) := by
  by_cases he : t = .empty
  · subst he
    refine ⟨⟨ver, [], true⟩, ?_, .done _ rfl⟩
    unfold Iter.new Iter.newLoop NodeKey.newEmptyPath
    rw [getNode_of hroot]
    simp only [toNode]
    unfold Iter.newBottom
    rw [getNode_of hroot]
    rfl
  · obtain ⟨it, e1, e2⟩ := newLoop_spec (ver := ver) (t0 := t) (s := s) t [] s.nibbles [] [] hg he rfl (.inl ⟨rfl, rfl, rfl, rfl⟩)
    refine ⟨it, ?_, by simpa using e2⟩
    rw [hv he] at e1
    exact e1

/-! `new_by_index` -/

theorem csOf_cons (H : Hasher D) (ch : Nibble → VTree D) (i : Nibble) (L : List Nibble) :
    csOf H ch (i :: L) = match (ch i).child H with
      | none => csOf H ch L
      | some c => (i, c) :: csOf H ch L := by
  unfold csOf
  rw [List.filterMap_cons]
  cases (ch i).child H <;> rfl

theorem skipLeaves_spec (H : Hasher D) (ch : Nibble → VTree D) (target : Nat) (L : List Nibble) (skipped : Nat) (h1 : skipped ≤ target)
    (h2 : target < skipped + (esOf ch L).length) :
    ∃ L1 i L2 c, L = L1 ++ i :: L2 ∧ (ch i).child H = some c ∧
      Iter.skipLeaves (csOf H ch L) skipped target = .ok (skipped + (esOf ch L1).length, i, c) ∧
      skipped + (esOf ch L1).length ≤ target ∧ target < skipped + (esOf ch L1).length + (ch i).entries.length := by
  induction L generalizing skipped with
  | nil => simp [esOf] at h2; omega
  | cons i L ih =>
    rw [csOf_cons]
    rw [esOf_cons, List.length_append] at h2
    cases hc : (ch i).child H with
    | none =>
      have he : ch i = .empty := child_eq_none.1 hc
      simp only [he, entries, List.length_nil, Nat.zero_add] at h2
      obtain ⟨L1, j, L2, c, e1, e2, e3, e4, e5⟩ := ih skipped h1 h2
      have hl : (esOf ch (i :: L1)).length = (esOf ch L1).length := by rw [esOf_cons, he]; rfl
      refine ⟨i :: L1, j, L2, c, by rw [e1]; rfl, e2, ?_, ?_, ?_⟩ <;> rw [hl]
      · exact e3
      · exact e4
      · exact e5
    | some c =>
      have hlc := (child_leafCount H (ch i) c hc).1
      simp only [Iter.skipLeaves, hlc]
      by_cases hle : skipped + (ch i).entries.length ≤ target
      · rw [if_pos hle]
        obtain ⟨L1, j, L2, c', e1, e2, e3, e4, e5⟩ := ih (skipped + (ch i).entries.length) hle (by omega)
        have hl : skipped + (esOf ch (i :: L1)).length = skipped + (ch i).entries.length + (esOf ch L1).length := by
          rw [esOf_cons, List.length_append]; omega
        refine ⟨i :: L1, j, L2, c', by rw [e1]; rfl, e2, ?_, ?_, ?_⟩ <;> rw [hl]
        · exact e3
        · exact e4
        · exact e5
      · rw [if_neg hle]
        exact ⟨[], i, L, c, rfl, hc, by simp [esOf], by simpa [esOf] using h1, by simp [esOf]; omega⟩

theorem split_from {L1 L2 : List Nibble} {i : Nibble} (h : List.finRange 16 = L1 ++ i :: L2) : L2 = fromL (i.val + 1) := by
  have hp := List.pairwise_lt_finRange 16
  unfold fromL
  rw [h] at hp ⊢
  rw [List.pairwise_append] at hp
  obtain ⟨_, hp2, hp3⟩ := hp
  rw [List.pairwise_cons] at hp2
  rw [List.filter_append, List.filter_cons]
  have e1 : L1.filter (fun j => decide (i.val + 1 ≤ j.val)) = [] := by
    rw [List.filter_eq_nil_iff]
    intro a ha
    have := hp3 a ha i (by simp)
    simp; omega
  have e2 : L2.filter (fun j => decide (i.val + 1 ≤ j.val)) = L2 := by
    rw [List.filter_eq_self]
    intro a ha
    have := hp2.1 a ha
    simp; omega
  rw [e1, e2]
  simp

theorem byIndexLoop_spec {H : Hasher D} {r : Reader D} {f : Key → Option Value} {ver : Version} {t0 : VTree D} (idx : Nat) (t : VTree D) :
    ∀ (p : List Nibble) (fuel skipped : Nat) (st : List (NodeVisitInfo D)) (R : List (Key × D)), Good H r f p t → t ≠ .empty →
      64 < fuel + p.length → skipped ≤ idx → idx < skipped + t.entries.length → OnWay H r f t0 st p t R →
      ∃ it, Iter.byIndexLoop r ver idx fuel ⟨t.version, p⟩ (t.toNode H) skipped st = .ok it ∧
        ItOk H r f ver t0 it (t.entries.drop (idx - skipped) ++ R) := by
  induction t with
  | empty => intro p fuel skipped st R _ h; exact absurd rfl h
  | leaf w k x =>
    intro p fuel skipped st R hg hne hfu h1 h2 hw
    have hpl := wf_length hg.wf hne
    obtain ⟨fuel, rfl⟩ : ∃ f', fuel = f' + 1 := ⟨fuel - 1, by omega⟩
    simp only [entries, List.length_singleton] at h2
    have he : skipped = idx := by omega
    subst he
    refine ⟨⟨ver, st, false⟩, ?_, ?_⟩
    · simp only [toNode, Iter.byIndexLoop, if_true]
    · simp only [entries, Nat.sub_self, List.drop_zero]
      rcases hw with ⟨rfl, rfl, rfl, _⟩ | ⟨hw1, hw2, hw3⟩
      · exact .leaf rfl
      · exact .stack _ _ hw2 hw3 (.inr ⟨p, _, R, hw1, rfl⟩)
  | node w m ch ih =>
    intro p fuel skipped st R hg hne hfu h1 h2 hw
    have hlen := wf_node_length hg.wf
    obtain ⟨fuel, rfl⟩ : ∃ f', fuel = f' + 1 := ⟨fuel - 1, by omega⟩
    obtain ⟨L1, i, L2, c, e1, e2, e3, e4, e5⟩ := skipLeaves_spec H ch idx (List.finRange 16) skipped h1 h2
    have hL2 := split_from e1
    have hi : ch i ≠ .empty := child_isSome (H := H).1 (by rw [e2]; rfl)
    obtain ⟨info, b, f1, f2, f3, _⟩ := hg.newInfo i i (Nat.le_refl _) hi
    cases f3 hi
    obtain ⟨it, g1, g2⟩ := ih i (p ++ [i]) fuel (skipped + (esOf ch L1).length) (info :: st) _ (hg.child i) hi (by simp; omega) e4 e5
      (hw.push f2)
    refine ⟨it, ?_, ?_⟩
    · simp only [toNode, Iter.byIndexLoop]
      rw [show (InternalNode.ofFun m (fun i => (ch i).child H)).children.iterSorted = csOf H ch (List.finRange 16) from rfl, e3]
      simp only [NodeKey.genChild, rootNibbleHeight, hlen, if_true, version_node]
      rw [f1]
      simp only [childOf_version e2]
      rw [getNode_of ((hg.child i).has.root hi)]
      exact g1
    · have hent : (VTree.node w m ch).entries = esOf ch L1 ++ ((ch i).entries ++ esOf ch (fromL (i.val + 1))) := by
        rw [← hL2, ← esOf_cons, ← esOf_append, ← e1]; rfl
      rw [hent, List.drop_append, List.drop_eq_nil_of_le (by omega), List.nil_append, List.drop_append,
        show idx - skipped - (esOf ch L1).length - (ch i).entries.length = 0 by omega, List.drop_zero, List.append_assoc,
        show idx - skipped - (esOf ch L1).length = idx - (skipped + (esOf ch L1).length) by omega]
      exact g2

theorem newByIndex_spec {H : Hasher D} {r : Reader D} {f : Key → Option Value} {ver : Version} {t : VTree D} (idx : Nat)
    (hg : Good H r f [] t) (hroot : r.getNodeOption ⟨ver, []⟩ = some (t.toNode H)) (hv : t ≠ .empty → t.version = ver) :
    ∃ it, Iter.newByIndex r ver idx = .ok it ∧ ItOk H r f ver t it (t.entries.drop idx) := by
  unfold Iter.newByIndex NodeKey.newEmptyPath
  simp only [getNode_of hroot, bind, Except.bind, toNode_leafCount]
  by_cases h : idx ≥ t.entries.length
  · rw [if_pos h, List.drop_eq_nil_of_le h]
    exact ⟨_, rfl, .done _ rfl⟩
  · rw [if_neg h]
    have hne : t ≠ .empty := by rintro rfl; simp [entries] at h
    obtain ⟨it, e1, e2⟩ := byIndexLoop_spec (ver := ver) (t0 := t) idx t [] 65 0 [] [] hg hne (by simp) (by omega) (by omega)
      (.inl ⟨rfl, rfl, rfl, rfl⟩)
    rw [hv hne] at e1
    exact ⟨it, e1, by simpa using e2⟩

theorem VTree.mem_entries_of_at? {H : Hasher D} {t : VTree D} {v : Version} {q : List Nibble} {l : LeafNode D}
    (h : t.at? H v q = some (.leaf l)) : (l.keyHash, l.valueHash) ∈ t.entries := by
  induction t generalizing q with
  | empty => simp at h
  | leaf w k x =>
    rw [at?_leaf] at h
    split at h
    · cases h; simp [entries]
    · cases h
  | node w m ch ih =>
    cases q with
    | nil => rw [at?_node_nil] at h; split at h <;> simp [toNode] at h
    | cons i q =>
      rw [at?_node_cons] at h
      simp only [entries, List.mem_flatMap]
      exact ⟨i, by simp, ih i h⟩

end Verif.Jmt
