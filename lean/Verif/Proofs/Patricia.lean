import Mathlib.Tactic.ByContra
import Verif.Pmt.Trie
/-!
Patricia tries without hash nodes: the trees the nodes of a trie stand for.
-/

set_option autoImplicit false

namespace Verif.Pmt

abbrev Nib := Fin 16

/-- Length of the longest common prefix. -/
def lcp : List Nib → List Nib → Nat
  | a :: t, b :: u => if a = b then lcp t u + 1 else 0
  | _, _ => 0

/-- Two lists without common prefix. -/
def Apart (p q : List Nib) : Prop := p = [] ∨ q = [] ∨ p.head? ≠ q.head?

theorem lcp_split (p q : List Nib) : ∃ c p' q', p = c ++ p' ∧ q = c ++ q' ∧ lcp p q = c.length ∧ Apart p' q' := by
  induction p generalizing q with
  | nil => exact ⟨[], [], q, rfl, rfl, by simp [lcp], .inl rfl⟩
  | cons a t ih =>
    cases q with
    | nil => exact ⟨[], _, [], rfl, rfl, by simp [lcp], .inr (.inl rfl)⟩
    | cons b u =>
      by_cases h : a = b
      · subst h
        obtain ⟨c, p', q', h1, h2, h3, h4⟩ := ih u
        exact ⟨a :: c, p', q', by rw [h1]; rfl, by rw [h2]; rfl, by simp [lcp, h3], h4⟩
      · exact ⟨[], _, _, rfl, rfl, by simp [lcp, h], .inr (.inr (by simpa using h))⟩

theorem lcp_append (c p q : List Nib) : lcp (c ++ p) (c ++ q) = c.length + lcp p q := by
  induction c with
  | nil => simp
  | cons a t ih => simp [lcp, ih]; omega

theorem lcp_apart {p q : List Nib} (h : Apart p q) : lcp p q = 0 := by
  cases p with
  | nil => simp [lcp]
  | cons a t =>
    cases q with
    | nil => simp [lcp]
    | cons b u =>
      rcases h with h | h | h
      · cases h
      · cases h
      · simp only [List.head?_cons, ne_eq, Option.some.injEq] at h
        simp [lcp, h]

theorem lcp_eq_length {p q : List Nib} : lcp p q = q.length ↔ q <+: p := by
  constructor
  · intro h
    obtain ⟨c, p', q', rfl, rfl, h3, _⟩ := lcp_split p q
    rw [h3, List.length_append] at h
    have : q' = [] := List.length_eq_zero_iff.1 (by omega)
    subst this
    simp
  · rintro ⟨r, rfl⟩
    have := lcp_append q r []
    rw [List.append_nil] at this
    rw [this, lcp_apart (.inr (.inl rfl))]
    simp

/-- A trie without hash nodes. -/
inductive PT where
  | empty
  | leaf (key : List Nib) (value : Bytes)
  | ext (pre : List Nib) (t : PT)
  | branch (children : Nib → PT) (value : Option Bytes)

namespace PT

/-- Replace one child. -/
def upd (cs : Nib → PT) (i : Nib) (t : PT) : Nib → PT := fun j => if j = i then t else cs j

/-- An extension, unless its prefix is empty. -/
def mk (p : List Nib) (t : PT) : PT := if p = [] then t else .ext p t

/-- The value at a path. -/
def get : PT → List Nib → Option Bytes
  | .empty, _ => none
  | .leaf k v, p => if k = p then some v else none
  | .branch cs v, p =>
    match p with
    | [] => v
    | i :: t => get (cs i) t
  | .ext q s, p => if lcp p q = q.length then get s (p.drop q.length) else none

/-- Put an entry at a position of a branch that has none. -/
def put (cs : Nib → PT) (w : Option Bytes) (p : List Nib) (v : Bytes) : PT :=
  match p with
  | [] => .branch cs (some v)
  | i :: t => .branch (upd cs i (.leaf t v)) w

/-- A branch with the old leaf and the new one. -/
def two (k : List Nib) (w : Bytes) (p : List Nib) (v : Bytes) : PT :=
  match k with
  | [] => put (fun _ => .empty) (some w) p v
  | i :: t => put (upd (fun _ => .empty) i (.leaf t w)) none p v

/-- A branch with the tree below an extension and a new leaf. -/
def split (q : List Nib) (s : PT) (p : List Nib) (v : Bytes) : PT :=
  match q with
  | [] => s
  | i :: t => put (upd (fun _ => .empty) i (mk t s)) none p v

/-- Insertion. -/
def insert (v : Bytes) : PT → List Nib → PT
  | .empty, p => .leaf p v
  | .leaf k w, p => if k = p then .leaf k v else mk (p.take (lcp p k)) (two (k.drop (lcp p k)) w (p.drop (lcp p k)) v)
  | .branch cs w, p =>
    match p with
    | [] => .branch cs (some v)
    | i :: t => .branch (upd cs i (insert v (cs i) t)) w
  | .ext q s, p =>
    if lcp p q = q.length then .ext q (insert v s (p.drop q.length))
    else mk (q.take (lcp p q)) (split (q.drop (lcp p q)) s (p.drop (lcp p q)) v)

/-- Normal form of an extension after its tree has changed. -/
def degExt : List Nib → PT → PT
  | p, .ext q s => degExt (p ++ q) s
  | p, .leaf k v => .leaf (p ++ k) v
  | p, t => .ext p t

/-- Positions with a child. -/
def used (cs : Nib → PT) : List Nib := (List.finRange 16).filter (fun i => match cs i with | .empty => false | _ => true)

/-- Normal form of a node after a child has changed. -/
def deg : PT → PT
  | .branch cs v =>
    match used cs, v with
    | [], some v => .leaf [] v
    | [i], none => degExt [i] (cs i)
    | _, _ => .branch cs v
  | .ext p t => degExt p t
  | t => t

/-- The results of a removal, with the flag telling that something was done. When the path ends at a branch, the branch is brought to
normal form if it was reached through a hash node, and left as it is otherwise. -/
inductive Del : PT → List Nib → PT → Bool → Prop
  | empty {p : List Nib} : Del .empty p .empty false
  | leafHit {k : List Nib} {v : Bytes} : Del (.leaf k v) k .empty true
  | leafMiss {k p : List Nib} {v : Bytes} (h : k ≠ p) : Del (.leaf k v) p (.leaf k v) false
  | value {cs : Nib → PT} {v : Option Bytes} : Del (.branch cs v) [] (.branch cs none) true
  | valueDeg {cs : Nib → PT} {v : Option Bytes} : Del (.branch cs v) [] (deg (.branch cs none)) true
  | child {cs : Nib → PT} {v : Option Bytes} {i : Nib} {p : List Nib} {r : PT} (h : Del (cs i) p r true) :
      Del (.branch cs v) (i :: p) (deg (.branch (upd cs i r) v)) true
  | childMiss {cs : Nib → PT} {v : Option Bytes} {i : Nib} {p : List Nib} {r : PT} (h : Del (cs i) p r false) :
      Del (.branch cs v) (i :: p) (.branch cs v) false
  | ext {q p : List Nib} {s r : PT} (h : Del s p r true) : Del (.ext q s) (q ++ p) (deg (.ext q r)) true
  | extMiss {q p : List Nib} {s r : PT} (h : Del s p r false) : Del (.ext q s) (q ++ p) (.ext q s) false
  | extOff {q p : List Nib} {s : PT} (h : ¬ q <+: p) : Del (.ext q s) p (.ext q s) false

/-! ### Reading -/

theorem get_ext_append (q p : List Nib) (s : PT) : (PT.ext q s).get (q ++ p) = s.get p := by
  simp [get, lcp_eq_length.2 (List.prefix_append q p)]

theorem get_ext_off {q p : List Nib} (s : PT) (h : ¬ q <+: p) : (PT.ext q s).get p = none := by
  simp only [get]
  rw [if_neg (fun h' => h (lcp_eq_length.1 h'))]

theorem get_mk_append (c p : List Nib) (s : PT) : (mk c s).get (c ++ p) = s.get p := by
  unfold mk
  split
  · next h => subst h; rfl
  · exact get_ext_append c p s

theorem get_mk_off {c p : List Nib} (s : PT) (h : ¬ c <+: p) : (mk c s).get p = none := by
  unfold mk
  split
  · next h' => subst h'; exact absurd (List.nil_prefix) h
  · exact get_ext_off s h

theorem get_put {cs : Nib → PT} {w : Option Bytes} {p : List Nib} (v : Bytes) (x : List Nib)
    (h : match p with | [] => True | i :: _ => cs i = .empty) :
    (put cs w p v).get x = if x = p then some v else (PT.branch cs w).get x := by
  cases p with
  | nil =>
    cases x with
    | nil => simp [put, get]
    | cons j u => simp [put, get]
  | cons i t =>
    cases x with
    | nil => simp [put, get]
    | cons j u =>
      simp only [put, get, upd, List.cons.injEq]
      by_cases hj : j = i
      · subst hj
        simp only [h, if_true, get, true_and]
        by_cases hu : t = u <;> simp [hu, eq_comm]
      · simp [hj]

theorem get_two {k p : List Nib} (w v : Bytes) (h : Apart p k) (hne : k ≠ p) (x : List Nib) :
    (two k w p v).get x = if x = p then some v else if x = k then some w else none := by
  cases k with
  | nil =>
    unfold two
    rw [get_put v x (by cases p <;> trivial)]
    cases x with
    | nil => simp [get]
    | cons j u => simp [get]
  | cons i t =>
    unfold two
    rw [get_put v x]
    · by_cases hx : x = p
      · simp [hx]
      · simp only [hx, if_false]
        cases x with
        | nil => simp [get]
        | cons j u =>
          simp only [get, upd, List.cons.injEq]
          by_cases hj : j = i
          · subst hj
            simp only [if_true, get, true_and, eq_comm]
          · simp [hj, get]
    · cases p with
      | nil => trivial
      | cons j u =>
        rcases h with h | h | h
        · cases h
        · cases h
        · simp only [List.head?_cons, ne_eq, Option.some.injEq] at h
          simp [upd, h]

theorem get_split {q p : List Nib} (s : PT) (v : Bytes) (h : Apart p q) (hq : q ≠ []) (x : List Nib) :
    (split q s p v).get x = if x = p then some v else (PT.ext q s).get x := by
  cases q with
  | nil => exact absurd rfl hq
  | cons i t =>
    unfold split
    rw [get_put v x]
    · by_cases hx : x = p
      · simp [hx]
      · simp only [hx, if_false]
        cases x with
        | nil => rw [get_ext_off s (by simp)]; simp [get]
        | cons j u =>
          by_cases hj : j = i
          · subst hj
            simp only [get, upd, if_true]
            by_cases hp : t <+: u
            · obtain ⟨r, rfl⟩ := hp
              rw [get_mk_append]
              exact (get_ext_append (j :: t) r s).symm
            · rw [get_mk_off s hp]
              have h0 : ¬ lcp (j :: u) (j :: t) = (j :: t).length := fun h' => by
                have := lcp_eq_length.1 h'
                rw [List.cons_prefix_cons] at this
                exact hp this.2
              rw [if_neg h0]
          · rw [get_ext_off s (by simp [List.cons_prefix_cons, Ne.symm hj])]
            simp [get, upd, hj]
    · cases p with
      | nil => trivial
      | cons j u =>
        rcases h with h | h | h
        · cases h
        · cases h
        · simp only [List.head?_cons, ne_eq, Option.some.injEq] at h
          simp [upd, h]

theorem get_insert (v : Bytes) (t : PT) (p x : List Nib) : (t.insert v p).get x = if x = p then some v else t.get x := by
  induction t generalizing p x with
  | empty => simp [insert, get, eq_comm]
  | leaf k w =>
    unfold insert
    split
    · next h => subst h; by_cases hx : k = x <;> simp [get, hx, eq_comm]
    · next hkp =>
      obtain ⟨c, p', k', rfl, rfl, h3, h4⟩ := lcp_split p k
      rw [h3]
      simp only [List.take_left', List.drop_left']
      by_cases hc : c <+: x
      · obtain ⟨y, rfl⟩ := hc
        rw [get_mk_append, get_two w v h4 (by rintro rfl; exact hkp rfl)]
        simp [get, eq_comm]
      · rw [get_mk_off _ hc]
        have h1 : x ≠ c ++ p' := by rintro rfl; exact hc (List.prefix_append _ _)
        have h2 : c ++ k' ≠ x := by rintro rfl; exact hc (List.prefix_append _ _)
        simp [get, h1, h2]
  | branch cs w ih =>
    cases p with
    | nil =>
      cases x with
      | nil => simp [insert, get]
      | cons j u => simp [insert, get]
    | cons i t =>
      cases x with
      | nil => simp [insert, get]
      | cons j u =>
        simp only [insert, get, upd, List.cons.injEq]
        by_cases hj : j = i
        · subst hj; simp only [if_true, ih, true_and]
        · simp [hj]
  | ext q s ih =>
    unfold insert
    split
    · next h =>
      obtain ⟨r, rfl⟩ := lcp_eq_length.1 h
      simp only [List.drop_left']
      by_cases hq : q <+: x
      · obtain ⟨y, rfl⟩ := hq
        simp [get_ext_append, ih]
      · rw [get_ext_off _ hq, get_ext_off _ hq]
        have h1 : x ≠ q ++ r := by rintro rfl; exact hq (List.prefix_append _ _)
        simp [h1]
    · next h =>
      obtain ⟨c, p', q', rfl, rfl, h3, h4⟩ := lcp_split p q
      rw [h3]
      simp only [List.take_left', List.drop_left']
      have hq' : q' ≠ [] := by
        rintro rfl
        exact h (by rw [h3]; simp)
      by_cases hc : c <+: x
      · obtain ⟨y, rfl⟩ := hc
        rw [get_mk_append, get_split s v h4 hq']
        by_cases hy : y = p'
        · simp [hy]
        · simp only [hy, if_false, List.append_cancel_left_eq]
          by_cases hqy : q' <+: y
          · obtain ⟨z, rfl⟩ := hqy
            rw [get_ext_append, ← List.append_assoc, get_ext_append]
          · rw [get_ext_off _ hqy, get_ext_off _ (by rw [List.prefix_append_right_inj]; exact hqy)]
      · rw [get_mk_off _ hc]
        have h1 : x ≠ c ++ p' := by rintro rfl; exact hc (List.prefix_append _ _)
        rw [get_ext_off _ (fun h' => hc ((List.prefix_append c q').trans h'))]
        simp [h1]

theorem get_degExt (p : List Nib) (t : PT) (x : List Nib) : (degExt p t).get x = (PT.ext p t).get x := by
  induction t generalizing p with
  | empty => rfl
  | branch cs v ih => rfl
  | leaf k v =>
    simp only [degExt]
    by_cases h : p <+: x
    · obtain ⟨y, rfl⟩ := h
      rw [get_ext_append]; simp [get]
    · rw [get_ext_off _ h]
      have : p ++ k ≠ x := by rintro rfl; exact h (List.prefix_append _ _)
      simp [get, this]
  | ext q s ih =>
    simp only [degExt, ih]
    by_cases h : p <+: x
    · obtain ⟨y, rfl⟩ := h
      rw [get_ext_append]
      by_cases h2 : q <+: y
      · obtain ⟨z, rfl⟩ := h2
        rw [get_ext_append, ← List.append_assoc, get_ext_append]
      · rw [get_ext_off _ h2, get_ext_off _ (by rw [List.prefix_append_right_inj]; exact h2)]
    · rw [get_ext_off _ h, get_ext_off _ (fun h' => h ((List.prefix_append p q).trans h'))]

theorem mem_used {cs : Nib → PT} {i : Nib} : i ∈ used cs ↔ cs i ≠ .empty := by
  simp only [used, List.mem_filter, List.mem_finRange, true_and]
  cases cs i <;> simp

theorem nodup_finRange (n : Nat) : (List.finRange n).Nodup := by
  rw [List.nodup_iff_pairwise_ne, List.pairwise_iff_getElem]
  intro i j hi hj hij
  simp only [List.getElem_finRange, ne_eq, Fin.ext_iff, Fin.val_cast]
  simp at *
  omega

theorem get_deg (t : PT) (x : List Nib) : (deg t).get x = t.get x := by
  cases t with
  | empty => rfl
  | leaf k v => rfl
  | ext p t => exact get_degExt p t x
  | branch cs v =>
    simp only [deg]
    split
    · next v heq =>
      cases x with
      | nil => simp [get]
      | cons i u =>
        have : cs i = .empty := by
          by_contra h
          have := mem_used.2 h
          rw [heq] at this; cases this
        simp [get, this]
    · next i heq =>
      rw [get_degExt]
      cases x with
      | nil => rw [get_ext_off _ (by simp)]; simp [get]
      | cons j u =>
        by_cases hj : j = i
        · subst hj; exact get_ext_append [j] u _
        · rw [get_ext_off _ (by simp [List.cons_prefix_cons, Ne.symm hj])]
          have : cs j = .empty := by
            by_contra h
            have := mem_used.2 h
            rw [heq] at this; simp at this; exact hj this
          simp [get, this]
    · rfl

theorem del_false {t r : PT} {p : List Nib} (h : Del t p r false) : r = t := by
  cases h <;> rfl

theorem get_del {t r : PT} {p : List Nib} {b : Bool} (h : Del t p r b) (x : List Nib) :
    r.get x = if x = p then none else t.get x := by
  induction h generalizing x with
  | empty => simp [get]
  | leafHit =>
    rename_i k v
    by_cases hx : k = x <;> simp [get, hx, eq_comm]
  | leafMiss h =>
    rename_i k p v
    simp only [get]
    by_cases hx : x = p
    · subst hx; simp [h]
    · simp [hx]
  | value => cases x <;> simp [get]
  | valueDeg => rw [get_deg]; cases x <;> simp [get]
  | child h ih =>
    rw [get_deg]
    rename_i cs v i p r
    cases x with
    | nil => simp [get]
    | cons j u =>
      simp only [get, upd, List.cons.injEq]
      by_cases hj : j = i
      · subst hj; simp [ih]
      · simp [hj]
  | childMiss h ih =>
    rename_i cs v i p r
    cases x with
    | nil => simp [get]
    | cons j u =>
      simp only [get, List.cons.injEq]
      by_cases hj : j = i
      · subst hj
        have := ih u
        rw [del_false h] at this
        simpa using this
      · simp [hj]
  | ext h ih =>
    rename_i q p s r
    rw [get_deg]
    by_cases hq : q <+: x
    · obtain ⟨y, rfl⟩ := hq
      simp [get_ext_append, ih]
    · rw [get_ext_off _ hq, get_ext_off _ hq]; simp
  | extMiss h ih =>
    rename_i q p s r
    by_cases hq : q <+: x
    · obtain ⟨y, rfl⟩ := hq
      have := ih y
      rw [del_false h] at this
      simpa [get_ext_append] using this
    · rw [get_ext_off _ hq]; simp
  | extOff h =>
    rename_i q p s
    by_cases hx : x = p
    · subst hx; rw [get_ext_off _ h]; simp
    · simp [hx]

/-! ### Shape and sizes -/

def IsBranch : PT → Prop
  | .branch _ _ => True
  | _ => False

/-- A value that can be stored: not empty, and shorter than `2^60` bytes so that the lengths in the encoding fit. -/
def ValOk (v : Bytes) : Prop := v ≠ [] ∧ v.length < 2 ^ 60

/-- Shape of the trees of a trie with paths of at most `d` nibbles. -/
def Ok : PT → Nat → Prop
  | .empty, _ => True
  | .leaf k v, d => k.length ≤ d ∧ ValOk v
  | .ext p t, d => p ≠ [] ∧ p.length ≤ d ∧ IsBranch t ∧ Ok t (d - p.length)
  | .branch cs v, d => (∀ i, cs i = .empty ∨ 1 ≤ d ∧ Ok (cs i) (d - 1)) ∧ ∀ w, v = some w → ValOk w

theorem ok_mono {t : PT} {d e : Nat} (h : Ok t d) (hde : d ≤ e) : Ok t e := by
  induction t generalizing d e with
  | empty => trivial
  | leaf k v => exact ⟨Nat.le_trans h.1 hde, h.2⟩
  | ext p t ih => exact ⟨h.1, Nat.le_trans h.2.1 hde, h.2.2.1, ih h.2.2.2 (by omega)⟩
  | branch cs v ih =>
    refine ⟨fun i => ?_, h.2⟩
    rcases h.1 i with h' | ⟨h1, h2⟩
    · exact .inl h'
    · exact .inr ⟨by omega, ih i h2 (by omega)⟩

theorem ok_mk {p : List Nib} {t : PT} {d : Nat} (hb : IsBranch t) (hp : p.length ≤ d) (h : Ok t (d - p.length)) : Ok (mk p t) d := by
  unfold mk
  split
  · next hp' => subst hp'; exact h
  · next hp' => exact ⟨hp', hp, hb, h⟩

theorem isBranch_put (cs : Nib → PT) (w : Option Bytes) (p : List Nib) (v : Bytes) : IsBranch (put cs w p v) := by
  cases p <;> trivial

theorem isBranch_two (k : List Nib) (w : Bytes) (p : List Nib) (v : Bytes) : IsBranch (two k w p v) := by
  cases k <;> exact isBranch_put ..

theorem isBranch_split (q : List Nib) (hq : q ≠ []) (s : PT) (p : List Nib) (v : Bytes) : IsBranch (split q s p v) := by
  cases q with
  | nil => exact absurd rfl hq
  | cons i t => exact isBranch_put ..

theorem ok_put {cs : Nib → PT} {w : Option Bytes} {p : List Nib} {v : Bytes} {d : Nat} (h : Ok (.branch cs w) d)
    (hp : p.length ≤ d) (hv : ValOk v) : Ok (put cs w p v) d := by
  cases p with
  | nil => exact ⟨h.1, fun w hw => by cases hw; exact hv⟩
  | cons i t =>
    refine ⟨fun j => ?_, h.2⟩
    simp only [upd]
    simp only [List.length_cons] at hp
    split
    · exact .inr ⟨by omega, by omega, hv⟩
    · exact h.1 j

theorem ok_two {k p : List Nib} {w v : Bytes} {d : Nat} (hk : k.length ≤ d) (hw : ValOk w) (hp : p.length ≤ d) (hv : ValOk v) :
    Ok (two k w p v) d := by
  cases k with
  | nil => exact ok_put ⟨fun _ => .inl rfl, fun w' h => by cases h; exact hw⟩ hp hv
  | cons i t =>
    refine ok_put ⟨fun j => ?_, fun _ h => by cases h⟩ hp hv
    simp only [upd]
    simp only [List.length_cons] at hk
    split
    · exact .inr ⟨by omega, by omega, hw⟩
    · exact .inl rfl

theorem ok_split {q p : List Nib} {s : PT} {v : Bytes} {d : Nat} (hq : q ≠ []) (hql : q.length ≤ d) (hb : IsBranch s)
    (hs : Ok s (d - q.length)) (hp : p.length ≤ d) (hv : ValOk v) : Ok (split q s p v) d := by
  cases q with
  | nil => exact absurd rfl hq
  | cons i t =>
    refine ok_put ⟨fun j => ?_, fun _ h => by cases h⟩ hp hv
    simp only [upd]
    simp only [List.length_cons] at hql hs
    split
    · exact .inr ⟨by omega, ok_mk hb (by omega) (by rwa [Nat.sub_sub, Nat.add_comm])⟩
    · exact .inl rfl

theorem isBranch_insert {t : PT} (h : IsBranch t) (v : Bytes) (p : List Nib) : IsBranch (t.insert v p) := by
  cases t with
  | branch cs w => cases p <;> trivial
  | _ => exact h.elim

theorem ok_insert {t : PT} {d : Nat} {p : List Nib} {v : Bytes} (h : Ok t d) (hp : p.length ≤ d) (hv : ValOk v) :
    Ok (t.insert v p) d := by
  induction t generalizing d p with
  | empty => exact ⟨hp, hv⟩
  | leaf k w =>
    unfold insert
    split
    · next hk => exact ⟨h.1, hv⟩
    · next hkp =>
      obtain ⟨c, p', k', rfl, rfl, h3, h4⟩ := lcp_split p k
      rw [h3]
      simp only [List.take_left', List.drop_left']
      have h1 := h.1
      simp only [List.length_append] at h1 hp
      exact ok_mk (isBranch_two ..) (by omega) (ok_two (by omega) h.2 (by omega) hv)
  | branch cs w ih =>
    cases p with
    | nil => exact ⟨h.1, fun w hw => by cases hw; exact hv⟩
    | cons i t =>
      refine ⟨fun j => ?_, h.2⟩
      simp only [upd]
      simp only [List.length_cons] at hp
      split
      · refine .inr ⟨by omega, ih i ?_ (by omega)⟩
        rcases h.1 i with h' | h'
        · rw [h']; trivial
        · exact h'.2
      · exact h.1 j
  | ext q s ih =>
    unfold insert
    split
    · next hq =>
      obtain ⟨r, rfl⟩ := lcp_eq_length.1 hq
      simp only [List.drop_left']
      simp only [List.length_append] at hp
      exact ⟨h.1, h.2.1, isBranch_insert h.2.2.1 v r, ih h.2.2.2 (by omega)⟩
    · next hq =>
      obtain ⟨c, p', q', rfl, rfl, h3, h4⟩ := lcp_split p q
      rw [h3]
      simp only [List.take_left', List.drop_left']
      have hq' : q' ≠ [] := by
        rintro rfl
        exact hq (by rw [h3]; simp)
      obtain ⟨h5, h6, h7, h8⟩ := h
      simp only [List.length_append] at h6 h8 hp
      refine ok_mk (isBranch_split q' hq' ..) (by omega) (ok_split hq' (by omega) h7 ?_ (by omega) hv)
      rwa [Nat.sub_sub]

theorem degExt_ne_empty (p : List Nib) (t : PT) : degExt p t ≠ .empty := by
  induction t generalizing p with
  | ext q s ih => exact ih _
  | _ => simp [degExt]

theorem deg_branch_ne_empty (cs : Nib → PT) (v : Option Bytes) : deg (.branch cs v) ≠ .empty := by
  simp only [deg]
  split
  · simp
  · exact degExt_ne_empty _ _
  · simp

theorem ok_degExt {p : List Nib} {t : PT} {d : Nat} (hne : t ≠ .empty) (hp : p ≠ []) (hpd : p.length ≤ d)
    (h : Ok t (d - p.length)) : Ok (degExt p t) d := by
  cases t with
  | empty => exact absurd rfl hne
  | branch cs v => exact ⟨hp, hpd, trivial, h⟩
  | leaf k v =>
    have := h.1
    exact ⟨by rw [List.length_append]; omega, h.2⟩
  | ext q s =>
    obtain ⟨h1, h2, h3, h4⟩ := h
    cases s with
    | branch cs v =>
      refine ⟨by simp [h1], by rw [List.length_append]; omega, trivial, ?_⟩
      rw [List.length_append, ← Nat.sub_sub]; exact h4
    | _ => exact h3.elim

theorem ok_deg_branch {cs : Nib → PT} {v : Option Bytes} {d : Nat} (h : Ok (.branch cs v) d) : Ok (deg (.branch cs v)) d := by
  simp only [deg]
  split
  · next w _ => exact ⟨Nat.zero_le _, h.2 w rfl⟩
  · next i heq =>
    have hne : cs i ≠ .empty := mem_used.1 (by rw [heq]; simp)
    rcases h.1 i with h' | ⟨h1, h2⟩
    · exact absurd h' hne
    · exact ok_degExt hne (by simp) h1 h2
  · exact h

theorem del_branch_ne_empty {cs : Nib → PT} {v : Option Bytes} {p : List Nib} {r : PT} {b : Bool}
    (h : Del (.branch cs v) p r b) : r ≠ .empty := by
  cases h
  · simp
  · exact deg_branch_ne_empty _ _
  · exact deg_branch_ne_empty _ _
  · simp

theorem ok_del {t r : PT} {p : List Nib} {b : Bool} {d : Nat} (hd : Del t p r b) (h : Ok t d) : Ok r d := by
  induction hd generalizing d with
  | empty => trivial
  | leafHit => trivial
  | leafMiss => exact h
  | value => exact ⟨h.1, fun _ h => by cases h⟩
  | valueDeg => exact ok_deg_branch ⟨h.1, fun _ h => by cases h⟩
  | child hd ih =>
    rename_i cs v i p r
    refine ok_deg_branch ⟨fun j => ?_, h.2⟩
    simp only [upd]
    split
    · rcases h.1 i with h' | h'
      · rw [h'] at hd; cases hd
      · exact .inr ⟨h'.1, ih h'.2⟩
    · exact h.1 j
  | childMiss => exact h
  | ext hd ih =>
    rename_i q p s r
    obtain ⟨h1, h2, h3, h4⟩ := h
    cases s with
    | branch cs v => exact ok_degExt (del_branch_ne_empty hd) h1 h2 (ih h4)
    | _ => exact h3.elim
  | extMiss => exact h
  | extOff => exact h

theorem deg_degExt (p : List Nib) (t : PT) : deg (degExt p t) = degExt p t := by
  induction t generalizing p with
  | empty => rfl
  | leaf k v => rfl
  | branch cs v ih => rfl
  | ext q s ih => exact ih _

theorem deg_deg (t : PT) : deg (deg t) = deg t := by
  cases t with
  | empty => rfl
  | leaf k v => rfl
  | ext p t => exact deg_degExt p t
  | branch cs v =>
    by_cases h1 : ∃ w, used cs = [] ∧ v = some w
    · obtain ⟨w, h, rfl⟩ := h1
      simp [deg, h]
    · by_cases h2 : ∃ i, used cs = [i] ∧ v = none
      · obtain ⟨i, h, rfl⟩ := h2
        have : deg (.branch cs none) = degExt [i] (cs i) := by simp [deg, h]
        rw [this, deg_degExt]
      · have : deg (.branch cs v) = .branch cs v := by
          simp only [deg]
          split
          · next w h => exact absurd ⟨w, h, rfl⟩ h1
          · next i h => exact absurd ⟨i, h, rfl⟩ h2
          · rfl
        rw [this, this]

theorem del_deg {t r : PT} {p : List Nib} (h : Del t p r true) : Del t p (deg r) true := by
  cases h with
  | leafHit => exact .leafHit
  | value => exact .valueDeg
  | valueDeg => rw [deg_deg]; exact .valueDeg
  | child h => rw [deg_deg]; exact .child h
  | ext h => rw [deg_deg]; exact .ext h

/-! ### Normal form -/

/-- At least two of the seventeen positions are filled. -/
def Two (cs : Nib → PT) (v : Option Bytes) : Prop :=
  (∃ i j, i ≠ j ∧ cs i ≠ .empty ∧ cs j ≠ .empty) ∨ (v.isSome ∧ ∃ i, cs i ≠ .empty)

/-- Normal form: branches have at least two entries, extensions are not empty and end in branches. -/
def Canon : PT → Prop
  | .empty => True
  | .leaf _ _ => True
  | .ext p t => p ≠ [] ∧ IsBranch t ∧ Canon t
  | .branch cs v => (∀ i, Canon (cs i)) ∧ Two cs v

theorem canon_mk {p : List Nib} {t : PT} (hb : IsBranch t) (h : Canon t) : Canon (mk p t) := by
  unfold mk
  split
  · exact h
  · next hp => exact ⟨hp, hb, h⟩

theorem mk_ne_empty {p : List Nib} {t : PT} (h : t ≠ .empty) : mk p t ≠ .empty := by
  unfold mk; split
  · exact h
  · simp

theorem IsBranch.ne_empty {t : PT} (h : IsBranch t) : t ≠ .empty := by rintro rfl; exact h

theorem canon_two {k p : List Nib} (w v : Bytes) (ha : Apart p k) (hne : k ≠ p) : Canon (two k w p v) := by
  cases k with
  | nil =>
    cases p with
    | nil => exact absurd rfl hne
    | cons i t =>
      refine ⟨fun j => ?_, .inr ⟨rfl, i, by simp [upd]⟩⟩
      simp only [upd]; split <;> trivial
  | cons i t =>
    cases p with
    | nil =>
      refine ⟨fun j => ?_, .inr ⟨rfl, i, by simp [upd]⟩⟩
      simp only [upd]; split <;> trivial
    | cons j u =>
      have hji : j ≠ i := by
        rcases ha with h | h | h
        · cases h
        · cases h
        · simpa using h
      refine ⟨fun l => ?_, .inl ⟨j, i, hji, by simp [upd], by simp [upd, Ne.symm hji]⟩⟩
      simp only [upd]; split
      · trivial
      · split <;> trivial

theorem canon_split {q p : List Nib} {s : PT} (v : Bytes) (ha : Apart p q) (hq : q ≠ []) (hb : IsBranch s) (hs : Canon s) :
    Canon (split q s p v) := by
  cases q with
  | nil => exact absurd rfl hq
  | cons i t =>
    have hc : Canon (mk t s) := canon_mk hb hs
    have he : mk t s ≠ .empty := mk_ne_empty hb.ne_empty
    cases p with
    | nil =>
      refine ⟨fun j => ?_, .inr ⟨rfl, i, by simpa [upd] using he⟩⟩
      simp only [upd]; split
      · exact hc
      · trivial
    | cons j u =>
      have hji : j ≠ i := by
        rcases ha with h | h | h
        · cases h
        · cases h
        · simpa using h
      refine ⟨fun l => ?_, .inl ⟨j, i, hji, by simp [upd], by simpa [upd, Ne.symm hji] using he⟩⟩
      simp only [upd]; split
      · trivial
      · split
        · exact hc
        · trivial

theorem insert_ne_empty (v : Bytes) (t : PT) (p : List Nib) : t.insert v p ≠ .empty := by
  intro h
  have := get_insert v t p p
  rw [h] at this
  simp [get] at this

theorem canon_insert {t : PT} (v : Bytes) (p : List Nib) (h : Canon t) : Canon (t.insert v p) := by
  induction t generalizing p with
  | empty => trivial
  | leaf k w =>
    unfold insert
    split
    · trivial
    · next hkp =>
      obtain ⟨c, p', k', rfl, rfl, h3, h4⟩ := lcp_split p k
      rw [h3]
      simp only [List.take_left', List.drop_left']
      exact canon_mk (isBranch_two ..) (canon_two w v h4 (by rintro rfl; exact hkp rfl))
  | branch cs w ih =>
    cases p with
    | nil =>
      refine ⟨h.1, ?_⟩
      rcases h.2 with h' | h'
      · exact .inl h'
      · exact .inr ⟨rfl, h'.2⟩
    | cons i t =>
      have key : ∀ j, cs j ≠ .empty → upd cs i (insert v (cs i) t) j ≠ .empty := by
        intro j hj
        simp only [upd]; split
        · exact insert_ne_empty v _ _
        · exact hj
      refine ⟨fun j => ?_, ?_⟩
      · simp only [upd]; split
        · exact ih i t (h.1 i)
        · exact h.1 j
      · rcases h.2 with ⟨a, b, h1, h2, h3⟩ | ⟨h1, a, h2⟩
        · exact .inl ⟨a, b, h1, key a h2, key b h3⟩
        · exact .inr ⟨h1, a, key a h2⟩
  | ext q s ih =>
    unfold insert
    split
    · exact ⟨h.1, isBranch_insert h.2.1 .., ih _ h.2.2⟩
    · next hq =>
      obtain ⟨c, p', q', rfl, rfl, h3, h4⟩ := lcp_split p q
      rw [h3]
      simp only [List.take_left', List.drop_left']
      have hq' : q' ≠ [] := by
        rintro rfl
        exact hq (by rw [h3]; simp)
      exact canon_mk (isBranch_split q' hq' ..) (canon_split v h4 hq' h.2.1 h.2.2)

theorem canon_degExt {p : List Nib} {t : PT} (hne : t ≠ .empty) (hp : p ≠ []) (h : Canon t) : Canon (degExt p t) := by
  cases t with
  | empty => exact absurd rfl hne
  | branch cs v => exact ⟨hp, trivial, h⟩
  | leaf k v => trivial
  | ext q s =>
    cases s with
    | branch cs v => exact ⟨by simp [hp], trivial, h.2.2⟩
    | _ => exact h.2.1.elim

theorem canon_deg_branch {cs : Nib → PT} {v : Option Bytes} (h : ∀ i, Canon (cs i)) (h1 : v.isSome ∨ ∃ i, cs i ≠ .empty) :
    Canon (deg (.branch cs v)) := by
  have hnd : (used cs).Nodup := (nodup_finRange 16).filter _
  rcases hu : used cs with _ | ⟨i, _ | ⟨j, l⟩⟩
  · rcases v with _ | w
    · rcases h1 with h1 | ⟨i, hi⟩
      · cases h1
      · have := mem_used.2 hi
        rw [hu] at this; cases this
    · simp [deg, hu, Canon]
  · have hi : cs i ≠ .empty := mem_used.1 (by rw [hu]; simp)
    rcases v with _ | w
    · have : deg (.branch cs none) = degExt [i] (cs i) := by simp [deg, hu]
      rw [this]
      exact canon_degExt hi (by simp) (h i)
    · have : deg (.branch cs (some w)) = .branch cs (some w) := by simp [deg, hu]
      rw [this]
      exact ⟨h, .inr ⟨rfl, i, hi⟩⟩
  · have : deg (.branch cs v) = .branch cs v := by simp [deg, hu]
    rw [this]
    refine ⟨h, .inl ⟨i, j, ?_, mem_used.1 (by rw [hu]; simp), mem_used.1 (by rw [hu]; simp)⟩⟩
    rw [hu] at hnd
    rintro rfl
    simp at hnd

theorem canon_key {t : PT} (h : Canon t) (hne : t ≠ .empty) : ∃ x v, t.get x = some v := by
  induction t with
  | empty => exact absurd rfl hne
  | leaf k v => exact ⟨k, v, by simp [get]⟩
  | ext p t ih =>
    obtain ⟨x, v, hx⟩ := ih h.2.2 h.2.1.ne_empty
    exact ⟨p ++ x, v, by rw [get_ext_append]; exact hx⟩
  | branch cs v ih =>
    have : ∃ i, cs i ≠ .empty := by
      rcases h.2 with ⟨i, _, _, hi, _⟩ | ⟨_, i, hi⟩ <;> exact ⟨i, hi⟩
    obtain ⟨i, hi⟩ := this
    obtain ⟨x, w, hx⟩ := ih i (h.1 i) hi
    exact ⟨i :: x, w, hx⟩

/-- A branch in normal form has two entries that differ in the first nibble. -/
theorem canon_keys {cs : Nib → PT} {v : Option Bytes} (h : Canon (.branch cs v)) :
    ∃ x y, ((PT.branch cs v).get x).isSome ∧ ((PT.branch cs v).get y).isSome ∧ x ≠ y ∧ Apart x y := by
  rcases h.2 with ⟨i, j, hij, hi, hj⟩ | ⟨hv, i, hi⟩
  · obtain ⟨x, a, hx⟩ := canon_key (h.1 i) hi
    obtain ⟨y, b, hy⟩ := canon_key (h.1 j) hj
    exact ⟨i :: x, j :: y, by simp [get, hx], by simp [get, hy], by simp [hij], .inr (.inr (by simpa using hij))⟩
  · obtain ⟨x, a, hx⟩ := canon_key (h.1 i) hi
    exact ⟨[], i :: x, by simpa [get] using hv, by simp [get, hx], by simp, .inl rfl⟩

/-- The flag tells whether there was an entry, unless the path ends above another entry. -/
theorem del_flag {t r : PT} {p : List Nib} {b : Bool} (hd : Del t p r b) (h : Canon t)
    (hp : ∀ x, x ≠ [] → t.get (p ++ x) = none) : b = (t.get p).isSome := by
  have noBranch : ∀ {cs : Nib → PT} {v : Option Bytes}, Canon (.branch cs v) →
      (∀ x, x ≠ [] → (PT.branch cs v).get ([] ++ x) = none) → False := by
    intro cs v h hp
    obtain ⟨x, y, h1, h2, h3, h4⟩ := canon_keys h
    by_cases hx : x = []
    · subst hx
      have := hp y (Ne.symm h3)
      simp only [List.nil_append] at this
      simp [this] at h2
    · have := hp x hx
      simp only [List.nil_append] at this
      simp [this] at h1
  induction hd with
  | empty => rfl
  | leafHit => simp [get]
  | leafMiss hk => simp [get, hk]
  | value => exact (noBranch h hp).elim
  | valueDeg => exact (noBranch h hp).elim
  | child hd ih => exact ih (h.1 _) (fun x hx => hp x hx)
  | childMiss hd ih => exact ih (h.1 _) (fun x hx => hp x hx)
  | ext hd ih =>
    rw [get_ext_append]
    exact ih h.2.2 (fun x hx => by have := hp x hx; rwa [List.append_assoc, get_ext_append] at this)
  | extMiss hd ih =>
    rw [get_ext_append]
    exact ih h.2.2 (fun x hx => by have := hp x hx; rwa [List.append_assoc, get_ext_append] at this)
  | extOff hq => rw [get_ext_off _ hq]; rfl

/-- Two entries go on differently after the path. -/
def Parts (t : PT) (p : List Nib) : Prop := ∃ i j x y, i ≠ j ∧ (t.get (p ++ i :: x)).isSome ∧ (t.get (p ++ j :: y)).isSome

/-- Removal keeps the normal form unless the path has an entry and ends above other ones that do not part there. -/
theorem canon_del {t r : PT} {p : List Nib} {b : Bool} (hd : Del t p r b) (h : Canon t)
    (hp : t.get p = none ∨ (∀ x, x ≠ [] → t.get (p ++ x) = none) ∨ Parts t p) : Canon r := by
  have atBranch : ∀ {cs : Nib → PT} {v : Option Bytes}, Canon (.branch cs v) →
      ((PT.branch cs v).get [] = none ∨ (∀ x, x ≠ [] → (PT.branch cs v).get ([] ++ x) = none) ∨ Parts (.branch cs v) []) → Two cs none := by
    intro cs v h hp
    rcases hp with hp | hp | ⟨i, j, x, y, hij, hi, hj⟩
    · have : v = none := hp
      subst this
      exact h.2
    · obtain ⟨x, y, h1, h2, h3, h4⟩ := canon_keys h
      by_cases hx : x = []
      · subst hx
        have := hp y (Ne.symm h3)
        simp only [List.nil_append] at this
        simp [this] at h2
      · have := hp x hx
        simp only [List.nil_append] at this
        simp [this] at h1
    · have ne : ∀ {i : Nib} {x : List Nib}, ((PT.branch cs v).get ([] ++ i :: x)).isSome → cs i ≠ .empty := by
        intro i x hi he
        simp [get, he] at hi
      exact .inl ⟨i, j, hij, ne hi, ne hj⟩
  induction hd with
  | empty => trivial
  | leafHit => trivial
  | leafMiss hk => trivial
  | value => exact ⟨h.1, atBranch h hp⟩
  | valueDeg =>
    refine canon_deg_branch h.1 (.inr ?_)
    rcases atBranch h hp with ⟨i, _, _, hi, _⟩ | ⟨_, i, hi⟩ <;> exact ⟨i, hi⟩
  | child hd ih =>
    rename_i cs v i p r
    have := ih (h.1 i) hp
    refine canon_deg_branch (fun j => ?_) ?_
    · simp only [upd]; split
      · exact this
      · exact h.1 j
    · rcases h.2 with ⟨a, c, h1, h2, h3⟩ | ⟨h1, _⟩
      · by_cases ha : a = i
        · exact .inr ⟨c, by simpa [upd, show c ≠ i by rintro rfl; exact h1 ha] using h3⟩
        · exact .inr ⟨a, by simpa [upd, ha] using h2⟩
      · exact .inl h1
  | childMiss hd ih => exact h
  | ext hd ih =>
    rename_i q p s r
    have := ih h.2.2 (by
      unfold Parts at hp ⊢
      simpa only [List.append_assoc, get_ext_append] using hp)
    obtain ⟨h1, h2, h3⟩ := h
    cases s with
    | branch cs v => exact canon_degExt (del_branch_ne_empty hd) h1 this
    | _ => exact h2.elim
  | extMiss hd ih => exact h
  | extOff hq => exact h

theorem prefix_of_apart {p q x y : List Nib} (ha : Apart x y) (hne : x ≠ y) (hx : q <+: p ++ x) (hy : q <+: p ++ y) : q <+: p := by
  induction p generalizing q with
  | nil =>
    cases q with
    | nil => exact List.nil_prefix
    | cons a u =>
      simp only [List.nil_append] at hx hy
      obtain ⟨r, rfl⟩ := hx
      obtain ⟨z, rfl⟩ := hy
      rcases ha with h | h | h <;> simp at h
  | cons a t ih =>
    cases q with
    | nil => exact List.nil_prefix
    | cons b u =>
      simp only [List.cons_append, List.cons_prefix_cons] at hx hy ⊢
      exact ⟨hx.1, ih hx.2 hy.2⟩

theorem ext_keys {p : List Nib} {s : PT} {x : List Nib} (h : ((PT.ext p s).get x).isSome) : p <+: x := by
  by_contra hn
  rw [get_ext_off _ hn] at h
  cases h

/-- Trees in normal form with the same entries are equal. -/
theorem canon_unique {t u : PT} (ht : Canon t) (hu : Canon u) (h : ∀ x, t.get x = u.get x) : t = u := by
  have emp : ∀ {t : PT}, Canon t → (∀ x, t.get x = none) → t = .empty := by
    intro t ht h
    by_contra hne
    obtain ⟨x, v, hx⟩ := canon_key ht hne
    rw [h x] at hx; cases hx
  have leafBranch : ∀ {k : List Nib} {v : Bytes} {cs : Nib → PT} {w : Option Bytes} {p : List Nib}, Canon (.branch cs w) →
      (∀ x, (PT.leaf k v).get (p ++ x) = (PT.branch cs w).get x) → False := by
    intro k v cs w p hc h
    obtain ⟨x, y, h1, h2, h3, _⟩ := canon_keys hc
    rw [← h x] at h1
    rw [← h y] at h2
    have e1 : k = p ++ x := by by_contra hn; simp [get, hn] at h1
    have e2 : k = p ++ y := by by_contra hn; simp [get, hn] at h2
    rw [e1] at e2
    exact h3 (List.append_cancel_left e2)
  have extBranch : ∀ {p : List Nib} {s : PT} {cs : Nib → PT} {w : Option Bytes}, p ≠ [] → Canon (.branch cs w) →
      (∀ x, (PT.ext p s).get x = (PT.branch cs w).get x) → False := by
    intro p s cs w hp hc h
    obtain ⟨x, y, h1, h2, h3, h4⟩ := canon_keys hc
    rw [← h x] at h1
    rw [← h y] at h2
    have := prefix_of_apart (p := []) h4 h3 (ext_keys h1) (ext_keys h2)
    exact hp (List.prefix_nil.1 this)
  induction t generalizing u with
  | empty => exact (emp hu (fun x => (h x).symm)).symm
  | leaf k v =>
    cases u with
    | empty => exact emp ht h
    | leaf k' v' =>
      have := h k
      simp only [get, if_true] at this
      by_cases hk : k' = k
      · subst hk; simp at this; rw [this]
      · simp [hk] at this
    | branch cs w => exact (leafBranch (p := []) hu h).elim
    | ext p s =>
      obtain ⟨h1, h2, h3⟩ := hu
      cases s with
      | branch cs w => exact (leafBranch (p := p) h3 (fun x => by rw [h, get_ext_append])).elim
      | _ => exact h2.elim
  | ext p s ih =>
    cases u with
    | empty => exact emp ht h
    | leaf k v =>
      obtain ⟨h1, h2, h3⟩ := ht
      cases s with
      | branch cs w => exact (leafBranch (p := p) h3 (fun x => by rw [← h, get_ext_append])).elim
      | _ => exact h2.elim
    | branch cs w => exact (extBranch ht.1 hu h).elim
    | ext q s' =>
      have pre : ∀ {p q : List Nib} {s s' : PT}, Canon (.ext p s) → (∀ x, (PT.ext p s).get x = (PT.ext q s').get x) → q <+: p := by
        intro p q s s' hc h
        obtain ⟨h1, h2, h3⟩ := hc
        cases s with
        | branch cs w =>
          obtain ⟨x, y, a1, a2, a3, a4⟩ := canon_keys h3
          have b1 : q <+: p ++ x := ext_keys (s := s') (by rw [← h, get_ext_append]; exact a1)
          have b2 : q <+: p ++ y := ext_keys (s := s') (by rw [← h, get_ext_append]; exact a2)
          exact prefix_of_apart a4 a3 b1 b2
        | _ => exact h2.elim
      have e1 := pre ht h
      have e2 := pre hu (fun x => (h x).symm)
      have : p = q := List.IsPrefix.eq_of_length_le e2 e1.length_le
      subst this
      rw [ih ht.2.2 hu.2.2 (fun x => by have := h (p ++ x); rwa [get_ext_append, get_ext_append] at this)]
  | branch cs w ih =>
    cases u with
    | empty => exact emp ht h
    | leaf k v => exact (leafBranch (p := []) ht (fun x => (h x).symm)).elim
    | ext p s => exact (extBranch hu.1 ht (fun x => (h x).symm)).elim
    | branch cs' w' =>
      have hw : w = w' := h []
      have hcs : cs = cs' := funext fun i => ih i (ht.1 i) (hu.1 i) (fun x => h (i :: x))
      rw [hw, hcs]

end PT
end Verif.Pmt
