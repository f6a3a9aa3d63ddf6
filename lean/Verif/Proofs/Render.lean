import Verif.Proofs.Index
import Verif.Proofs.Run
import Verif.Spec.Render
/-!
# The textual form of an index
-/
namespace Visigoth

/-! ## Numbers -/

theorem decimalValue_append (xs ys : Str) :
    decimalValue (xs ++ ys) = decimalValue xs * 10 ^ ys.length + decimalValue ys := by
  have key : ∀ (ys : Str) (v : Nat), ys.foldl (fun v d => 10 * v + (d.toNat - 0x30)) v
      = v * 10 ^ ys.length + ys.foldl (fun v d => 10 * v + (d.toNat - 0x30)) 0 := by
    intro ys
    induction ys with
    | nil => intro v; simp
    | cons y ys ih =>
      intro v
      simp only [List.foldl_cons, List.length_cons]
      rw [ih (10 * v + _), ih (10 * 0 + _), Nat.pow_succ]
      rw [Nat.add_mul, Nat.mul_zero, Nat.zero_add, Nat.add_assoc]
      congr 1
      rw [Nat.mul_comm 10 v, Nat.mul_assoc, Nat.mul_comm 10]
  unfold decimalValue
  rw [List.foldl_append, key]

theorem digit_toNat (k : Nat) (h : k < 10) : (UInt8.ofNat (0x30 + k)).toNat = 0x30 + k := by
  rw [UInt8.toNat_ofNat']
  exact Nat.mod_eq_of_lt (by omega)

theorem digit_range (k : Nat) (h : k < 10) : 0x30 ≤ UInt8.ofNat (0x30 + k) ∧ UInt8.ofNat (0x30 + k) ≤ 0x39 := by
  have := digit_toNat k h
  constructor <;> rw [UInt8.le_iff_toNat_le, this]
  · show 48 ≤ _; omega
  · show _ ≤ 57; omega

theorem digitsRev_spec : ∀ (fuel n : Nat), n < fuel →
    digitsRev fuel n ≠ [] ∧ (∀ d ∈ digitsRev fuel n, 0x30 ≤ d ∧ d ≤ 0x39) ∧
    decimalValue (digitsRev fuel n).reverse = n ∧
    ((digitsRev fuel n).reverse.head? = some 0x30 → n = 0) ∧ (n = 0 → digitsRev fuel n = [0x30]) := by
  intro fuel
  induction fuel with
  | zero => intro n h; omega
  | succ fuel ih =>
    intro n hn
    unfold digitsRev
    by_cases h : n < 10
    · simp only [h, if_true]
      refine ⟨by simp, ?_, ?_, ?_, ?_⟩
      · intro d hd
        rw [List.mem_singleton] at hd
        subst hd
        exact digit_range n h
      · simp only [List.reverse_singleton, decimalValue, List.foldl_cons, List.foldl_nil, digit_toNat n h]
        omega
      · intro h0
        simp only [List.reverse_singleton, List.head?_cons, Option.some.injEq] at h0
        have := congrArg UInt8.toNat h0
        rw [digit_toNat n h] at this
        have h48 : (0x30 : UInt8).toNat = 48 := rfl
        omega
      · rintro rfl; rfl
    · simp only [h, if_false]
      obtain ⟨h1, h2, h3, h4, h5⟩ := ih (n / 10) (by omega)
      refine ⟨by simp, ?_, ?_, ?_, ?_⟩
      · intro d hd
        rcases List.mem_cons.1 hd with rfl | hd
        · exact digit_range _ (Nat.mod_lt _ (by decide))
        · exact h2 d hd
      · rw [List.reverse_cons, decimalValue_append, h3]
        simp only [decimalValue, List.foldl_cons, List.foldl_nil, List.length_singleton, Nat.pow_one,
          digit_toNat _ (Nat.mod_lt n (by decide : 0 < 10))]
        omega
      · intro h0
        rw [List.reverse_cons, List.head?_append] at h0
        have hne : (digitsRev fuel (n / 10)).reverse ≠ [] := by simp [h1]
        obtain ⟨d, hd⟩ := Option.isSome_iff_exists.1 (List.isSome_head?.2 hne)
        rw [hd] at h0
        have := h4 (by rw [hd]; exact h0)
        omega
      · intro h0; omega

theorem fmtNat_isDecimal (n : Nat) : IsDecimal (fmtNat n) n := by
  obtain ⟨h1, h2, h3, h4, h5⟩ := digitsRev_spec (n + 1) n (Nat.lt_succ_self n)
  refine ⟨by simp [fmtNat, h1], ?_, ?_, h3⟩
  · intro d hd
    exact h2 d (List.mem_reverse.1 hd)
  · intro h
    unfold fmtNat
    rw [h5 (h4 h)]
    rfl

/-- A number has one decimal representation. -/
theorem isDecimal_unique {ds : Str} {n m : Nat} (h : IsDecimal ds n) (h' : IsDecimal ds m) : n = m := by
  rw [← h.2.2.2, ← h'.2.2.2]

/-! ## Lists of numbers and entries -/

theorem flatMap_sep (ns : List Nat) (f : Nat → Str) (sep x : Str) :
    x ++ ns.flatMap (fun m => sep ++ f m) = List.intercalate sep (x :: ns.map f) := by
  induction ns generalizing x with
  | nil => simp [List.intercalate]
  | cons n ns ih =>
    simp only [List.flatMap_cons, List.map_cons]
    rw [List.append_assoc sep, ih]
    simp [List.intercalate, List.intersperse]

theorem fmtNats_isNumbers (ns : List Nat) : IsNumbers (fmtNats ns) ns := by
  refine ⟨ns.map fmtNat, by simp, ?_, ?_⟩
  · intro i p n hp hn
    rw [List.getElem?_map, hn] at hp
    cases hp
    exact fmtNat_isDecimal n
  · cases ns with
    | nil => decide +kernel
    | cons n ns =>
      show lit "[" ++ fmtNat n ++ List.flatMap (fun m => lit " " ++ fmtNat m) ns ++ lit "]" = _
      rw [List.append_assoc (lit "["), flatMap_sep]
      have h1 : lit "[" = str "[" := by decide +kernel
      have h2 : lit " " = str " " := by decide +kernel
      have h3 : lit "]" = str "]" := by decide +kernel
      rw [h1, h2, h3]
      rfl

theorem fmtEntry_isEntry (token : Str) (ps : List Nat) : IsEntry (fmtEntry token ps) token ps := by
  refine ⟨fmtNat ps.length, fmtNats ps, fmtNat_isDecimal _, fmtNats_isNumbers _, ?_⟩
  have h1 : lit "\n\t[token=" = str "\n\t[token=" := by decide +kernel
  have h2 : lit ",length=(" = str ",length=(" := by decide +kernel
  have h3 : lit ")]=" = str ")]=" := by decide +kernel
  unfold fmtEntry
  rw [h1, h2, h3]

/-! ## An index -/

theorem mem_inverted_keys (tok : Tokenizer) (name : Str) (rs : List DocRequest) (t : Str) :
    t ∈ (buildIndex tok name rs).inverted.keys ↔ ∃ r ∈ rs, t ∈ tok r.statement := by
  rw [GoMap.mem_keys_iff, buildIndex_inverted_get]
  constructor
  · rintro ⟨l, hl⟩
    split at hl
    · cases hl
    · next hne =>
      obtain ⟨i, hi⟩ := List.exists_mem_of_ne_nil _ hne
      obtain ⟨r, h1, h2⟩ := (mem_positions tok rs t i).1 hi
      exact ⟨r, List.mem_of_getElem? h1, h2⟩
  · rintro ⟨r, hr, ht⟩
    obtain ⟨i, hi⟩ := List.getElem?_of_mem hr
    have hm : i ∈ positions tok rs t := (mem_positions tok rs t i).2 ⟨r, hi, ht⟩
    rw [if_neg (List.ne_nil_of_mem hm)]
    exact ⟨_, rfl⟩

theorem string_renders (tok : Tokenizer) (name : Str) (rs : List DocRequest) (order : List Str → List Str)
    (ho : ∀ l, (order l).Perm l) : Renders tok name rs ((buildIndex tok name rs).string order) := by
  refine ⟨order (buildIndex tok name rs).inverted.keys,
    (order (buildIndex tok name rs).inverted.keys).map fun t => fmtEntry t (positions tok rs t), ?_, ?_, by simp, ?_, ?_⟩
  · exact (ho _).nodup_iff.2 (buildIndex_keys_nodup tok name rs)
  · intro t
    rw [(ho _).mem_iff, mem_inverted_keys]
  · intro i l t hl ht
    rw [List.getElem?_map, ht] at hl
    cases hl
    exact fmtEntry_isEntry _ _
  · unfold MemoryIndex.string
    rw [buildIndex_name]
    have h1 : lit "{\n" ++ (lit "\tname=" ++ name) = str "{\n\tname=" ++ name := by
      rw [← List.append_assoc]
      congr 1
      decide +kernel
    have h2 : lit "\n}" = str "\n}" := by decide +kernel
    rw [h1, h2, ← List.flatMap_def]
    congr 3
    funext t
    rw [buildIndex_inverted]

/-! ## All indices -/

variable {cfg : Cfg} {o : Oracle} {t : Tid}

/-- The pointer of an index. -/
def Shared.ptrAt (s : Shared) (k : Name) : Ptr := (s.indices.get k).getD 0

/-- The object of an index. -/
def Shared.objAt (s : Shared) (k : Name) : MemoryIndex := (s.heap[s.ptrAt k]?).getD (newMemoryIndex [])

theorem Shared.ptrAt_eq (s : Shared) {k : Name} {p : Ptr} (h : s.indices.get k = some p) : s.ptrAt k = p := by
  simp [ptrAt, h]

theorem Shared.objAt_eq (s : Shared) {k : Name} {p : Ptr} {mi : MemoryIndex} (h : s.indices.get k = some p)
    (hp : s.heap[p]? = some mi) : s.objAt k = mi := by
  simp [objAt, s.ptrAt_eq h, hp]

theorem run_renderAll (s : Shared) (g : Name → Ptr) (f : Name → MemoryIndex) : ∀ ks : List Name,
    (∀ k ∈ ks, s.indices.get k = some (g k) ∧ s.heap[g k]? = some (f k)) →
    run cfg o t (Repo.renderAll ks) s
      = .ok (ks.map fun k => (f k).string (choosePerm (o.tokenOrder (g k))) ++ lit "\n").flatten s := by
  intro ks
  induction ks with
  | nil => intro _; rfl
  | cons k ks ih =>
    intro h
    obtain ⟨hp, hf⟩ := h k (by simp)
    simp only [Repo.renderAll, run_bind, run_perform, exec, hp, Exec.outcome, andThen_ok, hf,
      ih (fun k' hk' => h k' (List.mem_cons_of_mem _ hk')), run_pure, List.map_cons, List.flatten_cons,
      List.append_assoc]

end Visigoth
