import Verif.Proofs.PmtRun
import Verif.Proofs.PmtTotal
import Mathlib.Algebra.Order.BigOperators.Group.Finset
import Mathlib.Algebra.BigOperators.Fin
/-!
How many nodes are written when a node is encoded, and how updates change this number.
-/

set_option autoImplicit false

namespace Verif.Pmt

open PT

variable {K : Keccak} {S : Bytes → Prop} {db : Db}

/-- 1 for a node of 32 encoded bytes or more. -/
def longBit (K : Keccak) (n : Node) : Nat :=
  match encodeRaw K n with
  | .ok (b, _) => if b.length < 32 then 0 else 1
  | .error _ => 0

/-- The number of nodes of 32 encoded bytes or more in a node that are not hash nodes. -/
def load (K : Keccak) : Node → Nat
  | .hash _ => 0
  | .empty => 0
  | .leaf k v => longBit K (.leaf k v)
  | .ext p n => longBit K (.ext p n) + load K n
  | .branch cs v => longBit K (.branch cs v) + ∑ i, load K (cs i)

/-- The same without the node itself. -/
def under (K : Keccak) : Node → Nat
  | .ext _ n => load K n
  | .branch cs _ => ∑ i, load K (cs i)
  | _ => 0

theorem longBit_le (n : Node) : longBit K n ≤ 1 := by
  unfold longBit
  split
  · split <;> omega
  · omega

theorem load_eq (n : Node) : load K n = longBit K n + under K n := by
  cases n with
  | hash h => rfl
  | empty => rfl
  | _ => rfl

theorem load_le (n : Node) : load K n ≤ under K n + 1 := by
  have := longBit_le (K := K) n
  rw [load_eq]; omega

theorem under_le (n : Node) : under K n ≤ load K n := by rw [load_eq]; omega

theorem load_leaf_le (k : Nibbles) (v : Bytes) : load K (.leaf k v) ≤ 1 := longBit_le _

theorem load_ext_le (p : Nibbles) (n : Node) : load K (.ext p n) ≤ load K n + 1 := load_le (.ext p n)

theorem load_branch_le (cs : Fin 16 → Node) (v : Option Bytes) : load K (.branch cs v) ≤ (∑ i, load K (cs i)) + 1 := load_le (.branch cs v)

/-! ### What is written -/

theorem writeChildren_load {f : Fin 16 → Res (Encoded × Written)} {g : Fin 16 → Nat} (h : ∀ i e w, f i = .ok (e, w) → w.length = g i)
    {l : List (Fin 16)} {es : List Bytes} {w : Written} (hw : writeChildren f l = .ok (es, w)) : w.length = (l.map g).sum := by
  induction l generalizing es w with
  | nil => cases hw; rfl
  | cons i t ih =>
    unfold writeChildren at hw
    rcases h1 : f i with e | ⟨e, w1⟩
    · rw [h1] at hw; cases hw
    · rw [h1] at hw
      simp only [Res.ok_bind] at hw
      rcases h2 : writeChildren f t with e | ⟨es2, w2⟩
      · rw [h2] at hw; cases hw
      · rw [h2] at hw
        cases hw
        rw [List.length_append, h i e w1 h1, ih h2, List.map_cons, List.sum_cons]

theorem writeData_load {b : Bytes} {w : Written} : (writeData K b w).2.length = w.length + if b.length < 32 then 0 else 1 := by
  unfold writeData
  split <;> simp

theorem encodeRaw_of_write (hw : ∀ m e w, writeNode K m = .ok (e, w) → w.length = load K m) {n : Node} {b : Bytes} {w : Written}
    (h : encodeRaw K n = .ok (b, w)) : w.length = under K n := by
  cases n with
  | hash => cases h
  | empty => cases h; rfl
  | leaf k v =>
    simp only [encodeRaw] at h
    rcases hc : Nibbles.encodeCompact k with e | c
    · rw [hc] at h; cases h
    · rw [hc] at h; cases h; rfl
  | ext p m =>
    simp only [encodeRaw] at h
    rcases hc : Nibbles.encodeCompact p with e | c
    · rw [hc] at h; cases h
    · rw [hc] at h
      simp only [Res.ok_bind] at h
      rcases hm : writeNode K m with e | ⟨e, w1⟩
      · rw [hm] at h; cases h
      · rw [hm] at h; cases h
        exact hw m e _ hm
  | branch cs v =>
    simp only [encodeRaw] at h
    rcases hc : writeChildren (fun i => writeNode K (cs i)) (List.finRange 16) with e | ⟨es, w1⟩
    · rw [hc] at h; cases h
    · rw [hc] at h; cases h
      rw [writeChildren_load (g := fun i => load K (cs i)) (fun i e w hi => hw _ e w hi) hc]
      simp only [under]
      rw [Fin.sum_univ_def]

theorem writeNode_load {n : Node} {e : Encoded} {w : Written} (h : writeNode K n = .ok (e, w)) : w.length = load K n := by
  induction n generalizing e w with
  | hash => cases h; rfl
  | empty => cases h; rfl
  | leaf k v =>
    rw [writeNode_eq _ id] at h
    rcases hr : encodeRaw K (.leaf k v) with e1 | ⟨b, w1⟩
    · rw [hr] at h; cases h
    · rw [hr] at h
      have h1 : w1.length = 0 := by
        simp only [encodeRaw] at hr
        rcases hc : Nibbles.encodeCompact k with e | c
        · rw [hc] at hr; cases hr
        · rw [hc] at hr; cases hr; rfl
      have h2 := writeData_load (K := K) (b := b) (w := w1)
      have h3 : w = (writeData K b w1).2 := (congrArg Prod.snd (Except.ok.inj h)).symm
      rw [h3, h2, h1]
      simp only [load, longBit, hr, Nat.zero_add]
  | ext p m ih =>
    rw [writeNode_eq _ id] at h
    rcases hr : encodeRaw K (.ext p m) with e1 | ⟨b, w1⟩
    · rw [hr] at h; cases h
    · rw [hr] at h
      have h1 : w1.length = load K m := by
        simp only [encodeRaw] at hr
        rcases hc : Nibbles.encodeCompact p with e | c
        · rw [hc] at hr; cases hr
        · rw [hc] at hr
          simp only [Res.ok_bind] at hr
          rcases hm : writeNode K m with e | ⟨e, w1⟩
          · rw [hm] at hr; cases hr
          · rw [hm] at hr; cases hr
            exact ih hm
      have h2 := writeData_load (K := K) (b := b) (w := w1)
      have h3 : w = (writeData K b w1).2 := (congrArg Prod.snd (Except.ok.inj h)).symm
      rw [h3, h2, h1]
      simp only [load, longBit, hr]
      omega
  | branch cs v ih =>
    rw [writeNode_eq _ id] at h
    rcases hr : encodeRaw K (.branch cs v) with e1 | ⟨b, w1⟩
    · rw [hr] at h; cases h
    · rw [hr] at h
      have h1 : w1.length = ∑ i, load K (cs i) := by
        simp only [encodeRaw] at hr
        rcases hc : writeChildren (fun i => writeNode K (cs i)) (List.finRange 16) with e | ⟨es, w1⟩
        · rw [hc] at hr; cases hr
        · rw [hc] at hr; cases hr
          rw [writeChildren_load (g := fun i => load K (cs i)) (fun i e w hi => ih i hi) hc, Fin.sum_univ_def]
      have h2 := writeData_load (K := K) (b := b) (w := w1)
      have h3 : w = (writeData K b w1).2 := (congrArg Prod.snd (Except.ok.inj h)).symm
      rw [h3, h2, h1]
      simp only [load, longBit, hr]
      omega

theorem encodeRaw_load {n : Node} {b : Bytes} {w : Written} (h : encodeRaw K n = .ok (b, w)) : w.length = under K n :=
  encodeRaw_of_write (fun _ _ _ h => writeNode_load h) h

/-! ### Nodes read from the database -/

theorem below_true (t : PT) : Below K (fun _ => True) t := by
  induction t with
  | empty => trivial
  | leaf k v => trivial
  | ext p t ih => exact ⟨fun _ => trivial, ih⟩
  | branch cs v ih => exact fun i => ⟨fun _ => trivial, ih i⟩

theorem load_short {t : PT} (hok : Ok t (2 ^ 60)) (hs : (enc K t).length < 32) (hu : under K (top K t) = 0) : load K (top K t) = 0 := by
  obtain ⟨w, hw⟩ := encodeRaw_ok (rep_top (below_true (K := K) t)) hok (top_not_hash t)
  rw [load_eq, hu]
  unfold longBit
  rw [hw.1]
  simp only [if_pos hs]

theorem under_top {t : PT} (hok : Ok t (2 ^ 60)) : under K (top K t) = 0 := by
  induction t with
  | empty => rfl
  | leaf k v => rfl
  | ext p t ih =>
    simp only [top, under]
    split
    · next hs => exact load_short (ok_sub hok) hs (ih (ok_sub hok))
    · rfl
  | branch cs v ih =>
    simp only [top, under]
    refine Finset.sum_eq_zero fun i _ => ?_
    split
    · next hs => exact load_short (ok_child hok i) hs (ih i (ok_child hok i))
    · rfl

theorem load_top_le {t : PT} (hok : Ok t (2 ^ 60)) : load K (top K t) ≤ 1 := by
  have := load_le (K := K) (top K t)
  rw [under_top hok] at this
  exact this

/-! ### Changing a child -/

theorem sum_set (cs : Fin 16 → Node) (i : Fin 16) (n : Node) :
    (∑ j, load K (if j = i then n else cs j)) + load K (cs i) = (∑ j, load K (cs j)) + load K n := by
  rw [← Finset.add_sum_erase (s := Finset.univ) (a := i) _ (Finset.mem_univ i),
    ← Finset.add_sum_erase (s := Finset.univ) (a := i) (fun j => load K (cs j)) (Finset.mem_univ i)]
  have : ∑ x ∈ Finset.univ.erase i, load K (if x = i then n else cs x) = ∑ x ∈ Finset.univ.erase i, load K (cs x) :=
    Finset.sum_congr rfl fun j hj => by rw [if_neg (Finset.ne_of_mem_erase hj)]
  rw [this, if_pos rfl]
  omega

theorem sum_empty : ∑ _j : Fin 16, load K Node.empty = 0 := Finset.sum_eq_zero fun _ _ => rfl

theorem branchInsert_load {cs cs' : Fin 16 → Node} {v v' : Option Bytes} {i : Nat} {n : Node} (h : branchInsert cs v i n = .ok (cs', v')) :
    ∑ j, load K (cs' j) ≤ (∑ j, load K (cs j)) + load K n := by
  unfold branchInsert at h
  split at h
  · cases n with
    | leaf k w => cases h; omega
    | _ => cases h
  · split at h
    · next hi =>
      cases h
      have := sum_set (K := K) cs ⟨i, hi⟩ n
      dsimp only
      omega
    · cases h

theorem insertLeaf_load {key p : Nibbles} {old v : Bytes} {n : Node} (h : insertLeaf key old p v = .ok n) : load K n ≤ p.length + 3 := by
  unfold insertLeaf at h
  simp only at h
  split at h
  · cases h
    have := load_leaf_le (K := K) key v
    omega
  · rcases h1 : offset key (Nibbles.commonPrefix p key + 1) with e | k1
    · rw [h1] at h; cases h
    · rw [h1] at h
      simp only [Res.ok_bind] at h
      rcases h2 : at' key (Nibbles.commonPrefix p key) with e | i1
      · rw [h2] at h; cases h
      · rw [h2] at h
        simp only [Res.ok_bind] at h
        rcases h3 : branchInsert (fun _ => .empty) none i1 (.leaf k1 old) with e | ⟨cs, w⟩
        · rw [h3] at h; cases h
        · rw [h3] at h
          simp only [Res.ok_bind] at h
          rcases h4 : offset p (Nibbles.commonPrefix p key + 1) with e | k2
          · rw [h4] at h; cases h
          · have hp : 1 ≤ p.length := by
              unfold offset at h4
              split at h4
              · omega
              · cases h4
            rw [h4] at h
            simp only [Res.ok_bind] at h
            rcases h5 : at' p (Nibbles.commonPrefix p key) with e | i2
            · rw [h5] at h; cases h
            · rw [h5] at h
              simp only [Res.ok_bind] at h
              rcases h6 : branchInsert cs w i2 (.leaf k2 v) with e | ⟨cs', w'⟩
              · rw [h6] at h; cases h
              · rw [h6] at h
                simp only [Res.ok_bind] at h
                have g1 := branchInsert_load (K := K) h3
                have g2 := branchInsert_load (K := K) h6
                have g3 := sum_empty (K := K)
                have g4 := load_leaf_le (K := K) k1 old
                have g5 := load_leaf_le (K := K) k2 v
                have g6 := load_branch_le (K := K) cs' w'
                split at h
                · cases h; omega
                · cases h
                  have g7 := load_ext_le (K := K) (p.take (Nibbles.commonPrefix p key)) (.branch cs' w')
                  omega

theorem insertSplit_load {pre p : Nibbles} {sub n : Node} {v : Bytes} (h : insertSplit pre sub p v = .ok n) : load K n ≤ load K sub + 3 := by
  unfold insertSplit at h
  rcases h1 : at' pre 0 with e | i
  · rw [h1] at h; cases h
  · rw [h1] at h
    simp only [Res.ok_bind] at h
    rcases h2 : branchInsert (fun _ => .empty) none i (if pre.length = 1 then sub else .ext (pre.drop 1) sub) with e | ⟨cs, w⟩
    · rw [h2] at h; cases h
    · rw [h2] at h
      simp only [Res.ok_bind] at h
      have g1 := branchInsert_load (K := K) h2
      have g2 := sum_empty (K := K)
      have g3 : load K (if pre.length = 1 then sub else .ext (pre.drop 1) sub) ≤ load K sub + 1 := by
        split
        · omega
        · exact load_ext_le _ _
      rcases h3 : at' p 0 with e | x
      · rw [h3] at h; cases h
      · rw [h3] at h
        simp only [Res.ok_bind] at h
        split at h
        · cases h
          have := load_branch_le (K := K) cs (some v)
          omega
        · split at h
          · next hx =>
            cases h
            have g4 := load_branch_le (K := K) (fun j => if j = ⟨x, hx⟩ then .leaf (p.drop 1) v else cs j) w
            have g5 := sum_set (K := K) cs ⟨x, hx⟩ (.leaf (p.drop 1) v)
            have g6 := load_leaf_le (K := K) (p.drop 1) v
            omega
          · cases h

/-- Nodes read from the database have only short nodes and hash nodes in them. -/
def Fetches (K : Keccak) (db : Db) : Prop := ∀ h m, fetch db h = .ok m → under K m = 0

theorem insertStep_load {hop : H256 → Nibbles → Out Node} (hh : ∀ h p n, (hop h p).2 = .ok n → load K n ≤ p.length + 3) {v : Bytes} {n m : Node}
    {p : Nibbles} (h : (insertStep hop v n p).2 = .ok m) : load K m ≤ under K n + p.length + 3 := by
  induction n generalizing p m with
  | empty =>
    cases h
    have := load_leaf_le (K := K) p v
    omega
  | leaf key old =>
    have := insertLeaf_load (K := K) (show insertLeaf key old p v = .ok m from h)
    omega
  | hash x =>
    have := hh x p m h
    omega
  | branch cs w ih =>
    cases p with
    | nil => cases h
    | cons x t =>
      unfold insertStep at h
      simp only at h
      split at h
      · cases h
        have := load_branch_le (K := K) cs (some v)
        simp only [under]
        omega
      · split at h
        · next hx =>
          rcases hc : (insertStep hop v (cs ⟨x, hx⟩) t).2 with e | c
          · simp only [Out.map, hc] at h; cases h
          · simp only [Out.map, hc] at h
            cases h
            have g1 := ih ⟨x, hx⟩ hc
            have g2 := under_le (K := K) (cs ⟨x, hx⟩)
            have g3 := sum_set (K := K) cs ⟨x, hx⟩ c
            have g4 := load_branch_le (K := K) (fun j => if j = ⟨x, hx⟩ then c else cs j) w
            simp only [under, List.length_cons]
            omega
        · cases h
  | ext pre sub ih =>
    unfold insertStep at h
    simp only at h
    have hm := commonPrefix_le p pre
    split at h
    · have := insertSplit_load (K := K) (show insertSplit pre sub p v = .ok m from h)
      simp only [under]
      omega
    · split at h
      · rcases hc : (insertStep hop v sub (p.drop (Nibbles.commonPrefix p pre))).2 with e | c
        · simp only [Out.map, hc] at h; cases h
        · simp only [Out.map, hc] at h
          cases h
          have g1 := ih hc
          have g2 := under_le (K := K) sub
          have g3 := load_ext_le (K := K) pre c
          rw [List.length_drop] at g1
          simp only [under]
          omega
      · rcases hc : insertSplit (pre.drop (Nibbles.commonPrefix p pre)) sub (p.drop (Nibbles.commonPrefix p pre)) v with e | c
        · simp only [hc] at h; cases h
        · simp only [hc] at h
          cases h
          have g1 := insertSplit_load (K := K) hc
          have g2 := load_ext_le (K := K) (pre.take (Nibbles.commonPrefix p pre)) c
          simp only [under]
          omega

theorem insertAt_load (hF : Fetches K db) {v : Bytes} {fuel : Nat} {n m : Node} {p : Nibbles} (h : (insertAt db v fuel n p).2 = .ok m) :
    load K m ≤ under K n + p.length + 3 := by
  induction fuel generalizing n m p with
  | zero => exact insertStep_load (fun h p n hn => by cases hn) h
  | succ f ih =>
    refine insertStep_load (fun x p n hn => ?_) h
    rcases hx : fetch db x with e | c
    · rw [hx] at hn; cases hn
    · rw [hx] at hn
      have := ih (show (insertAt db v f c p).2 = .ok n from hn)
      rw [hF x c hx] at this
      omega

theorem degenerateExt_load {hop : H256 → Nibbles → Out Node} (hh : ∀ h p n, (hop h p).2 = .ok n → load K n ≤ 2) {n m : Node} {p : Nibbles}
    (h : (degenerateExt hop p n).2 = .ok m) : load K m ≤ under K n + 2 := by
  induction n generalizing p with
  | empty =>
    cases h
    have := load_ext_le (K := K) p .empty
    simp only [load] at this ⊢
    omega
  | leaf k v =>
    cases h
    have := load_leaf_le (K := K) (p ++ k) v
    omega
  | hash x =>
    have := hh x p m h
    omega
  | branch cs w =>
    cases h
    have g1 := load_ext_le (K := K) p (.branch cs w)
    have g2 := load_le (K := K) (.branch cs w)
    omega
  | ext q s ih =>
    have g1 := ih (show (degenerateExt hop (p ++ q) s).2 = .ok m from h)
    have g2 := under_le (K := K) s
    simp only [under]
    omega

theorem degenerateExtAt_load (hF : Fetches K db) {fuel : Nat} {n m : Node} {p : Nibbles} (h : (degenerateExtAt db fuel p n).2 = .ok m) :
    load K m ≤ under K n + 2 := by
  induction fuel generalizing n m p with
  | zero => exact degenerateExt_load (fun h p n hn => by cases hn) h
  | succ f ih =>
    refine degenerateExt_load (fun x p n hn => ?_) h
    rcases hx : fetch db x with e | c
    · rw [hx] at hn; cases hn
    · rw [hx] at hn
      have := ih (show (degenerateExtAt db f p c).2 = .ok n from hn)
      rw [hF x c hx] at this
      omega

theorem degenerate_load (hF : Fetches K db) {n m : Node} (h : (degenerate db n).2 = .ok m) : load K m ≤ under K n + 2 := by
  cases n with
  | empty => cases h; have := load_le (K := K) Node.empty; omega
  | leaf k v => cases h; have := load_le (K := K) (.leaf k v); omega
  | hash x => cases h; simp [load]
  | ext p s =>
    have g1 := degenerateExtAt_load hF (show (degenerateExtAt db (db.len + 1) p s).2 = .ok m from h)
    have g2 := under_le (K := K) s
    simp only [under]
    omega
  | branch cs v =>
    have hb := load_le (K := K) (.branch cs v)
    unfold degenerate at h
    simp only at h
    split at h
    · cases h
      exact Nat.le_trans (load_leaf_le _ _) (by omega)
    · next i _ =>
      have g1 := degenerateExtAt_load hF h
      have g2 := under_le (K := K) (cs i)
      have g3 : load K (cs i) ≤ ∑ j, load K (cs j) := Finset.single_le_sum (f := fun j => load K (cs j)) (fun _ _ => Nat.zero_le _) (Finset.mem_univ i)
      simp only [under]
      omega
    · cases h
      omega

end Verif.Pmt
