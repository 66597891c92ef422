import Verif.Spec.PmtDoc
import Verif.Proofs.PmtSerde
import Mathlib.Tactic.Choose
/-!
Reading is described by the documents of `Spec/PmtDoc`.
-/

set_option autoImplicit false

namespace Verif.Serde

theorem bind_eq_ok {α β : Type} {x : Res α} {f : α → Res β} {b : β} : (x >>= f) = .ok b ↔ ∃ a, x = .ok a ∧ f a = .ok b := by
  cases x with
  | ok a => exact ⟨fun h => ⟨a, rfl, h⟩, fun ⟨_, h1, h2⟩ => by cases h1; exact h2⟩
  | error e => exact ⟨fun h => (nomatch h), fun ⟨_, h, _⟩ => (nomatch h)⟩

theorem filter_nil {fs : List (String × Value)} {name : String} :
    fs.filter (fun e => e.1 = name) = [] ↔ ∀ e ∈ fs, e.1 ≠ name := by
  simp only [List.filter_eq_nil_iff, decide_eq_true_eq, ne_eq]

theorem filter_one {fs : List (String × Value)} {name : String} {v : Value} :
    (∃ e, fs.filter (fun e => e.1 = name) = [e] ∧ e.2 = v) ↔ Pmt.Spec.Named fs name v := by
  constructor
  · rintro ⟨e, h, rfl⟩
    obtain ⟨l, r, rfl, hl, he, hr⟩ := List.filter_eq_cons_iff.1 h
    have : e.1 = name := by simpa using he
    subst this
    refine ⟨l, r, rfl, fun x hx => ?_⟩
    rcases List.mem_append.1 hx with hx | hx
    · simpa using hl x hx
    · exact filter_nil.1 hr x hx
  · rintro ⟨l, r, rfl, h⟩
    refine ⟨(name, v), ?_, rfl⟩
    rw [List.filter_append, List.filter_cons, if_pos (by simp), filter_nil.2 (fun e he => h e (List.mem_append_left _ he)),
      filter_nil.2 (fun e he => h e (List.mem_append_right _ he))]
    rfl

theorem field?_some {fs : List (String × Value)} {name : String} {v : Value} : field? fs name = .ok (some v) ↔ Pmt.Spec.Named fs name v := by
  rw [← filter_one]
  unfold field?
  split
  · rename_i h; rw [h]; simp
  · rename_i e h; rw [h]; simp
  · rename_i h1 h2
    exact ⟨fun h => (nomatch h), fun ⟨e, h, _⟩ => (h2 e h).elim⟩

theorem field?_none {fs : List (String × Value)} {name : String} : field? fs name = .ok none ↔ ∀ e ∈ fs, e.1 ≠ name := by
  rw [← filter_nil]
  unfold field?
  split
  · rename_i h; rw [h]; simp
  · rename_i e h; rw [h]; simp
  · rename_i h1 h2
    exact ⟨fun h => (nomatch h), fun h => (h1 h).elim⟩

theorem field_iff {fs : List (String × Value)} {name : String} {v : Value} : field fs name = .ok v ↔ Pmt.Spec.Named fs name v := by
  rw [← field?_some]
  unfold field
  rw [bind_eq_ok]
  constructor
  · rintro ⟨a, h1, h2⟩
    cases a with
    | none => cases h2
    | some w => cases h2; exact h1
  · exact fun h => ⟨_, h, rfl⟩

theorem optField_iff {fs : List (String × Value)} {name : String} {v : Value} :
    optField fs name = .ok v ↔ Pmt.Spec.Named fs name v ∨ v = .null ∧ ∀ e ∈ fs, e.1 ≠ name := by
  rw [← field?_some, ← field?_none]
  unfold optField
  rw [bind_eq_ok]
  constructor
  · rintro ⟨a, h1, h2⟩
    cases a with
    | none => cases h2; exact .inr ⟨rfl, h1⟩
    | some w => cases h2; exact .inl h1
  · rintro (h | ⟨rfl, h⟩)
    · exact ⟨_, h, rfl⟩
    · exact ⟨_, h, rfl⟩

theorem twoFields_iff {a b : String} {c x y : Value} : twoFields a b false c = .ok (x, y) ↔ Pmt.Spec.TwoNamed a b c x y := by
  unfold Pmt.Spec.TwoNamed twoFields
  split
  · rename_i fs
    simp only [Bool.false_eq_true, if_false, bind_eq_ok, field_iff, reduceCtorEq, false_or, Value.obj.injEq]
    constructor
    · rintro ⟨_, h1, _, h2, h⟩; cases h; exact ⟨fs, rfl, h1, h2⟩
    · rintro ⟨_, rfl, h1, h2⟩; exact ⟨x, h1, y, h2, rfl⟩
  · simp
  · rename_i h1 h2
    exact ⟨fun h => (nomatch h), fun h => by rcases h with rfl | ⟨fs, rfl, -⟩ <;> [exact (h2 _ _ rfl).elim; exact (h1 _ rfl).elim]⟩

theorem twoFields_opt_iff {a b : String} {c x y : Value} : twoFields a b true c = .ok (x, y) ↔
    Pmt.Spec.TwoNamed a b c x y ∨ ∃ fs, c = .obj fs ∧ Pmt.Spec.Named fs a x ∧ y = .null ∧ ∀ e ∈ fs, e.1 ≠ b := by
  unfold Pmt.Spec.TwoNamed twoFields
  split
  · rename_i fs
    simp only [if_true, bind_eq_ok, field_iff, optField_iff, reduceCtorEq, false_or, Value.obj.injEq]
    constructor
    · rintro ⟨_, h1, _, h2, h⟩
      cases h
      rcases h2 with h2 | h2
      · exact .inl ⟨fs, rfl, h1, h2⟩
      · exact .inr ⟨fs, rfl, h1, h2⟩
    · rintro (⟨_, rfl, h1, h2⟩ | ⟨_, rfl, h1, h2⟩)
      · exact ⟨x, h1, y, .inl h2, rfl⟩
      · exact ⟨x, h1, y, .inr h2, rfl⟩
  · simp
  · rename_i h1 h2
    refine ⟨fun h => (nomatch h), fun h => ?_⟩
    rcases h with (rfl | ⟨fs, rfl, -⟩) | ⟨fs, rfl, -⟩
    · exact (h2 _ _ rfl).elim
    · exact (h1 _ rfl).elim
    · exact (h1 _ rfl).elim

theorem oneField_iff {a : String} {c x : Value} : oneField a c = .ok x ↔ c = .seq [x] ∨ ∃ fs, c = .obj fs ∧ Pmt.Spec.Named fs a x := by
  unfold oneField
  split
  · rename_i fs
    simp only [field_iff, reduceCtorEq, false_or, Value.obj.injEq]
    exact ⟨fun h => ⟨fs, rfl, h⟩, fun ⟨_, h1, h2⟩ => h1 ▸ h2⟩
  · simp
  · rename_i h1 h2
    exact ⟨fun h => (nomatch h), fun h => by rcases h with rfl | ⟨fs, rfl, -⟩ <;> [exact (h2 _ rfl).elim; exact (h1 _ rfl).elim]⟩

theorem readAll_iff {α : Type} {f : Value → Res α} {l : List Value} {r : List α} :
    readAll f l = .ok r ↔ List.Forall₂ (fun v a => f v = .ok a) l r := by
  induction l generalizing r with
  | nil => cases r <;> simp [readAll]
  | cons v l ih =>
    unfold readAll
    simp only [bind_eq_ok]
    constructor
    · rintro ⟨a, h1, as, h2, h3⟩
      cases h3
      exact .cons h1 (ih.1 h2)
    · intro h
      cases h with
      | cons h1 h2 => exact ⟨_, h1, _, ih.2 h2, rfl⟩

theorem readByte_iff {v : Value} {b : UInt8} : readByte v = .ok b ↔ v = .num b.toNat := by
  unfold readByte
  split
  · rename_i n
    split
    · rename_i h
      simp only [Except.ok.injEq, Value.num.injEq]
      constructor
      · rintro rfl; rw [UInt8.toNat_ofNat']; omega
      · rintro rfl; rw [UInt8.ofNat_toNat]
    · rename_i h
      simp only [reduceCtorEq, Value.num.injEq, false_iff]
      have := b.toNat_lt
      omega
  · rename_i h
    exact ⟨fun h => (nomatch h), fun h' => (h _ h').elim⟩

theorem readBytes_iff {v : Value} {b : List UInt8} : readBytes v = .ok b ↔ Pmt.Spec.ArrayDoc v b := by
  unfold readBytes Pmt.Spec.ArrayDoc
  split
  · rename_i l
    simp only [readAll_iff, readByte_iff, Value.seq.injEq]
    constructor
    · intro h
      induction h with
      | nil => rfl
      | cons h1 _ ih => rw [h1, ih]; rfl
    · rintro rfl
      induction b with
      | nil => exact .nil
      | cons x b ih => exact .cons rfl ih
  · rename_i h
    exact ⟨fun h => (nomatch h), fun h' => (h _ h').elim⟩

end Verif.Serde

namespace Verif.Pmt
open Verif.Serde

theorem H256.ofSerde_iff {v : Value} {h : H256} : H256.ofSerde v = .ok h ↔ Spec.ArrayDoc v h.bytes := by
  rw [← readBytes_iff]
  unfold H256.ofSerde
  rw [bind_eq_ok]
  constructor
  · rintro ⟨b, h1, h2⟩
    split at h2
    · cases h2; exact h1
    · cases h2
  · intro h1
    exact ⟨_, h1, by rw [dif_pos h.size]; rfl⟩

theorem readValue_iff {v : Value} {o : Option Bytes} : readValue v = .ok o ↔ v = .null ∧ o = none ∨ ∃ b, o = some b ∧ Spec.ArrayDoc v b := by
  unfold readValue
  split
  · constructor
    · intro h; cases h; exact .inl ⟨rfl, rfl⟩
    · rintro (⟨-, rfl⟩ | ⟨b, -, h⟩)
      · rfl
      · cases h
  · rename_i h
    simp only [bind_eq_ok, readBytes_iff]
    constructor
    · rintro ⟨b, h1, h2⟩; cases h2; exact .inr ⟨b, rfl, h1⟩
    · rintro (⟨h', -⟩ | ⟨b, rfl, h1⟩)
      · exact (h h').elim
      · exact ⟨b, h1, rfl⟩

theorem readChildren_iff {f : Value → Res Node} {v : Value} {cs : Fin 16 → Node} :
    readChildren f v = .ok cs ↔ ∃ g : Fin 16 → Value, v = .seq (List.ofFn g) ∧ ∀ i, f (g i) = .ok (cs i) := by
  unfold readChildren
  split
  · rename_i l
    simp only [bind_eq_ok, readAll_iff, Value.seq.injEq]
    constructor
    · rintro ⟨r, h1, h2⟩
      split at h2
      · rename_i hr
        cases h2
        have hl : l.length = 16 := h1.length_eq.trans hr
        refine ⟨fun i => l[i.val], ?_, fun i => ?_⟩
        · apply List.ext_getElem
          · rw [List.length_ofFn, hl]
          · intro i h3 h4; rw [List.getElem_ofFn]
        · exact (List.forall₂_iff_get.1 h1).2 i.val (by omega) (by omega)
      · cases h2
    · rintro ⟨g, rfl, h⟩
      refine ⟨List.ofFn cs, List.forall₂_iff_get.2 ⟨by rw [List.length_ofFn, List.length_ofFn], fun i h1 h2 => ?_⟩, ?_⟩
      · rw [List.get_ofFn, List.get_ofFn]
        exact h _
      · rw [dif_pos List.length_ofFn]
        congr 1
        funext i
        rw [List.getElem_ofFn]
  · rename_i h
    exact ⟨fun h => (nomatch h), fun ⟨g, h', _⟩ => (h _ h').elim⟩

theorem Nibbles.ofSerde_iff {v : Value} {n : Nibbles} : Nibbles.ofSerde v = .ok n ↔ ∃ b, readHex v = .ok b ∧ n = b.map UInt8.toNat := by
  unfold Nibbles.ofSerde
  rw [bind_eq_ok]
  exact ⟨fun ⟨b, h1, h2⟩ => by cases h2; exact ⟨b, h1, rfl⟩, fun ⟨b, h1, h2⟩ => ⟨b, h1, h2 ▸ rfl⟩⟩

theorem Node.branch_height_lt {cs : Fin 16 → Node} {o : Option Bytes} {l : Nat} :
    (Node.branch cs o).height < l + 1 ↔ ∀ i, (cs i).height < l := by
  simp only [Node.height]
  constructor
  · intro h i
    have := Finset.le_sup (f := fun i => (cs i).height) (Finset.mem_univ i)
    omega
  · intro h
    have h0 : 0 < l := Nat.lt_of_le_of_lt (Nat.zero_le _) (h 0)
    have := (Finset.sup_lt_iff (s := Finset.univ) (f := fun i => (cs i).height) (by simpa using h0)).2 fun i _ => h i
    omega

/-- What is read is what the documents say. -/
theorem Node.ofSerde_iff (hhex : ∀ v b, readHex v = .ok b ↔ Spec.HexDoc v b) {limit : Nat} {v : Value} {n : Node} :
    Node.ofSerde limit v = .ok n ↔ Spec.NodeDoc v n ∧ n.height < limit := by
  induction limit generalizing v n with
  | zero => exact ⟨fun h => (nomatch h), fun h => (Nat.not_lt_zero _ h.2).elim⟩
  | succ limit ih =>
    constructor
    · intro h
      unfold Node.ofSerde at h
      split at h
      · split at h
        · rename_i s hs; cases h; subst hs; exact ⟨.empty, Nat.succ_pos _⟩
        · cases h
      · rename_i name c
        split at h
        · rename_i hn
          split at h
          · cases h; subst hn; exact ⟨.emptyNull, Nat.succ_pos _⟩
          · cases h
        split at h
        · rename_i hn
          subst hn
          obtain ⟨⟨k, x⟩, h1, h⟩ := bind_eq_ok.1 h
          obtain ⟨k', h2, h⟩ := bind_eq_ok.1 h
          obtain ⟨x', h3, h⟩ := bind_eq_ok.1 h
          cases h
          obtain ⟨b, h4, rfl⟩ := Nibbles.ofSerde_iff.1 h2
          exact ⟨.leaf (twoFields_iff.1 h1) ((hhex _ _).1 h4) ((hhex _ _).1 h3), Nat.succ_pos _⟩
        split at h
        · rename_i hn
          subst hn
          obtain ⟨⟨k, x⟩, h1, h⟩ := bind_eq_ok.1 h
          obtain ⟨k', h2, h⟩ := bind_eq_ok.1 h
          obtain ⟨x', h3, h⟩ := bind_eq_ok.1 h
          cases h
          obtain ⟨b, h4, rfl⟩ := Nibbles.ofSerde_iff.1 h2
          obtain ⟨h5, h6⟩ := ih.1 h3
          exact ⟨.ext (twoFields_iff.1 h1) ((hhex _ _).1 h4) h5, Nat.succ_lt_succ h6⟩
        split at h
        · rename_i hn
          subst hn
          obtain ⟨⟨k, x⟩, h1, h⟩ := bind_eq_ok.1 h
          obtain ⟨k', h2, h⟩ := bind_eq_ok.1 h
          obtain ⟨x', h3, h⟩ := bind_eq_ok.1 h
          cases h
          obtain ⟨g, rfl, h4⟩ := readChildren_iff.1 h2
          have hh : (Node.branch k' x').height < limit + 1 := Node.branch_height_lt.2 fun i => (ih.1 (h4 i)).2
          refine ⟨?_, hh⟩
          rcases twoFields_opt_iff.1 h1 with h1 | ⟨fs, rfl, h5, rfl, h6⟩
          · rcases readValue_iff.1 h3 with ⟨rfl, rfl⟩ | ⟨b, rfl, h7⟩
            · exact .branch (fun i => (ih.1 (h4 i)).1) h1
            · exact .branchValue (fun i => (ih.1 (h4 i)).1) h1 h7
          · cases h3
            exact .branchAbsent (fun i => (ih.1 (h4 i)).1) h5 h6
        split at h
        · rename_i hn
          subst hn
          obtain ⟨x, h2, h⟩ := bind_eq_ok.1 h
          obtain ⟨d, h1, h⟩ := bind_eq_ok.1 h
          cases h
          exact ⟨.hash (oneField_iff.1 h2) (H256.ofSerde_iff.1 h1), Nat.succ_pos _⟩
        · cases h
      · cases h
    · rintro ⟨h, hl⟩
      cases h with
      | empty => rfl
      | emptyNull => rfl
      | leaf h1 h2 h3 =>
        show (do
          let (k, x) ← twoFields "key" "value" false _
          pure (Node.leaf (← Nibbles.ofSerde k) (← readHex x))) = _
        rw [twoFields_iff.2 h1, Res.ok_bind]
        dsimp only
        rw [Nibbles.ofSerde_iff.2 ⟨_, (hhex _ _).2 h2, rfl⟩, Res.ok_bind, (hhex _ _).2 h3, Res.ok_bind]
        rfl
      | ext h1 h2 h3 =>
        show (do
          let (p, x) ← twoFields "prefix" "node" false _
          pure (Node.ext (← Nibbles.ofSerde p) (← Node.ofSerde limit x))) = _
        rw [twoFields_iff.2 h1, Res.ok_bind]
        dsimp only
        rw [Nibbles.ofSerde_iff.2 ⟨_, (hhex _ _).2 h2, rfl⟩, Res.ok_bind, ih.2 ⟨h3, Nat.lt_of_succ_lt_succ hl⟩, Res.ok_bind]
        rfl
      | branch h1 h2 =>
        show (do
          let (cs, x) ← twoFields "children" "value" true _
          pure (Node.branch (← readChildren (Node.ofSerde limit) cs) (← readValue x))) = _
        rw [twoFields_opt_iff.2 (.inl h2), Res.ok_bind]
        dsimp only
        rw [readChildren_iff.2 ⟨_, rfl, fun i => ih.2 ⟨h1 i, Node.branch_height_lt.1 hl i⟩⟩]
        rfl
      | branchAbsent h1 h2 h3 =>
        show (do
          let (cs, x) ← twoFields "children" "value" true _
          pure (Node.branch (← readChildren (Node.ofSerde limit) cs) (← readValue x))) = _
        rw [twoFields_opt_iff.2 (.inr ⟨_, rfl, h2, rfl, h3⟩), Res.ok_bind]
        dsimp only
        rw [readChildren_iff.2 ⟨_, rfl, fun i => ih.2 ⟨h1 i, Node.branch_height_lt.1 hl i⟩⟩]
        rfl
      | branchValue h1 h2 h3 =>
        show (do
          let (cs, x) ← twoFields "children" "value" true _
          pure (Node.branch (← readChildren (Node.ofSerde limit) cs) (← readValue x))) = _
        rw [twoFields_opt_iff.2 (.inl h2), Res.ok_bind]
        dsimp only
        rw [readChildren_iff.2 ⟨_, rfl, fun i => ih.2 ⟨h1 i, Node.branch_height_lt.1 hl i⟩⟩, Res.ok_bind,
          readValue_iff.2 (.inr ⟨_, rfl, h3⟩)]
        rfl
      | hash h1 h2 =>
        show (do pure (Node.hash (← H256.ofSerde (← oneField "hash" _)))) = _
        rw [oneField_iff.2 h1, Res.ok_bind, H256.ofSerde_iff.2 h2]
        rfl

theorem Trie.ofSerde_iff (hhex : ∀ v b, readHex v = .ok b ↔ Spec.HexDoc v b) {limit : Nat} {v : Value} {t : Trie} :
    Trie.ofSerde limit v = .ok t ↔ Spec.TrieDoc v t.root t.rootHash ∧ t.root.height < limit ∧ t = ⟨t.root, t.rootHash, [], [], []⟩ := by
  unfold Trie.ofSerde
  constructor
  · intro h
    obtain ⟨⟨x, y⟩, h1, h⟩ := bind_eq_ok.1 h
    obtain ⟨n, h2, h⟩ := bind_eq_ok.1 h
    obtain ⟨d, h3, h⟩ := bind_eq_ok.1 h
    cases h
    obtain ⟨h4, h5⟩ := (Node.ofSerde_iff hhex).1 h2
    exact ⟨⟨x, y, twoFields_iff.1 h1, h4, H256.ofSerde_iff.1 h3⟩, h5, rfl⟩
  · rintro ⟨⟨x, y, h1, h2, h3⟩, h4, h5⟩
    rw [twoFields_iff.2 h1, Res.ok_bind]
    dsimp only
    rw [(Node.ofSerde_iff hhex).2 ⟨h2, h4⟩, Res.ok_bind, H256.ofSerde_iff.2 h3]
    rw [h5]
    rfl

end Verif.Pmt
