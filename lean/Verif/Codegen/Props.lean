import Verif.Codegen.Loops

/-!
# C140: loop nests do what isl's syntax tree says
-/

namespace Heir.Codegen

variable {α : Type} {f : List Int → List α → List α}

theorem start_iters (xs : List α) : gets (start xs) (List.range xs.length) = some (dat xs) := by
  suffices h : ∀ (k n : Nat), k + n = xs.length →
      gets (start xs) ((List.range n).map (k + ·)) = some (dat (xs.drop k)) by
    have := h 0 xs.length (by omega)
    simpa using this
  intro k n
  induction n generalizing k with
  | zero => intro h; simp [gets, dat, List.drop_eq_nil_of_le (show xs.length ≤ k by omega)]
  | succ n ih =>
    intro h
    have h2 := ih (k + 1) (by omega)
    have hk : k < xs.length := by omega
    rw [List.range_succ_eq_map, List.map_cons, List.map_map]
    have e : ((k + ·) ∘ Nat.succ : Nat → Nat) = (k + 1 + ·) := by funext i; simp; omega
    rw [e]
    have hs : start xs k = some (.data xs[k]) := by simp [start, List.getElem?_eq_getElem hk]
    simp only [gets, h2, Nat.add_zero, hs]
    rw [List.drop_eq_getElem_cons hk]
    rfl

/-- The results of the loop that is returned, for a tree with a loop at its root. -/
theorem generate_ok (hf : ∀ is xs, (f is xs).length = xs.length) {node : Node} {rev : Bool}
    {ts : List (List Int)} (hl : node.isLoop = true) (hs : node.Served [])
    (ht : walk rev node (fun _ => none) = some ts) {xs : List α} (hx : xs ≠ []) :
    ∃ p, generateForLoop node xs.length rev = some p ∧
      result f p xs = some (ts.foldl (fun a is => f is a) xs) := by
  obtain ⟨⟨ops, rs, st⟩, h1, ⟨_, _, _, _, _, h7⟩, h8⟩ := gen_ok rev hf node
    ⟨xs.length, fun _ => none, List.range xs.length, []⟩ [] hs (by intro x hx; simp at hx)
    (fun _ _ => rfl) (by simpa using hx) (by intro r hr; simpa using hr)
  obtain ⟨l, h8⟩ := h8 hl
  simp only at h7 h8
  obtain ⟨τ, t1, -, t3⟩ := h7 (start xs) (fun _ => none) xs ts (by intro x hx; simp at hx)
    (start_iters xs) ht
  refine ⟨(ops, rs), by simp [generateForLoop, h1, h8], ?_⟩
  simp only [result, t1, Option.bind_some, t3, datas_dat]
  rfl

/-- Partial for the range: for a tree that is a loop, whose expressions have types, whose nested loops
have variables of different names and whose numbers all have 32 bits, loops are built, and the values of
the loop that is returned are those that come of calling the body once for each point of the tree, in
the order of the tree, with the point's arguments. -/
theorem C140_forward_partial (hf : ∀ is xs, (f is xs).length = xs.length) {node : Node}
    {ts : List (List Int)} (hl : node.isLoop = true) (hs : node.Served [])
    (ht : trace node (fun _ => none) = some ts) {xs : List α} (hx : xs ≠ []) :
    ∃ p, generateForLoop node xs.length false = some p ∧
      result f p xs = some (ts.foldl (fun a is => f is a) xs) :=
  generate_ok hf hl hs (by rw [walk_false]; exact ht) hx

/-- Partial as above; with `reverse`, the body is called in the opposite order, if the tree has no
sequences. -/
theorem C140_reverse_partial (hf : ∀ is xs, (f is xs).length = xs.length) {node : Node}
    {ts : List (List Int)} (hl : node.isLoop = true) (hs : node.Served []) (hp : node.Perfect)
    (ht : trace node (fun _ => none) = some ts) {xs : List α} (hx : xs ≠ []) :
    ∃ p, generateForLoop node xs.length true = some p ∧
      result f p xs = some (ts.reverse.foldl (fun a is => f is a) xs) :=
  generate_ok hf hl hs (walk_true node _ ts hp ht) hx

/-- Partial as above; with `reverse`, whatever the tree, the body is called once for each point. -/
theorem C140_reverse_once_partial (hf : ∀ is xs, (f is xs).length = xs.length) {node : Node}
    {ts : List (List Int)} (hl : node.isLoop = true) (hs : node.Served [])
    (ht : trace node (fun _ => none) = some ts) {xs : List α} (hx : xs ≠ []) :
    ∃ us : List (List Int), us.Perm ts ∧ ∃ p, generateForLoop node xs.length true = some p ∧
      result f p xs = some (us.foldl (fun a is => f is a) xs) := by
  obtain ⟨us, h1, h2⟩ := walk_perm node _ ts ht
  exact ⟨us, h2, generate_ok hf hl hs h1 hx⟩

/-! ## Examples -/

/-- A body that writes its arguments down. -/
def log (is : List Int) (xs : List (List (List Int))) : List (List (List Int)) :=
  xs.map fun x => x ++ [is]

def num (n : Int) : Expr := .int n
def var (x : Nat) : Expr := .id x
def bin (k : Bin) (a b : Expr) : Expr := .op (.bin k) [a, b]

/-- `for (c0 = 0; c0 <= 5; c0 += 2) for (c1 = max(0, c0 - 1); c1 < c0 + 2; c1 += 1)
if ((c0 + c1) % 2 == 0) S(c0, c1, floord(c1 - 3, 2))`. -/
def sample : Node :=
  .loop 0 (num 0) true (num 5) (num 2)
    (.loop 1 (.op (.bin .max) [num 0, bin .sub (var 0) (num 1)]) false (bin .add (var 0) (num 2)) (num 1)
      (.ifThen (.op (.cmp .eq) [.op .pdivr [bin .add (var 0) (var 1), num 2], num 0])
        (.user [var 0, var 1, bin .fdivq (bin .sub (var 1) (num 3)) (num 2)])))

theorem sample_trace : trace sample (fun _ => none) =
    some [[0, 0, -2], [2, 2, -1], [4, 4, 0]] := by decide +kernel

theorem sample_served : sample.Served [] := by
  simp only [sample, Node.Served]
  exact ⟨by decide, by decide, by decide, by decide, by decide, by decide, by decide, by decide, by decide,
    ⟨[false, false, false], by decide, by decide⟩⟩

example : ∃ p, generateForLoop sample 1 false = some p ∧
    result log p [[]] = some [[[0, 0, -2], [2, 2, -1], [4, 4, 0]]] :=
  C140_forward_partial (f := log) (by intro is xs; simp [log]) (node := sample) rfl sample_served
    sample_trace (xs := [[]]) (by simp)

example : ∃ p, generateForLoop sample 1 true = some p ∧
    result log p [[]] = some [[[4, 4, 0], [2, 2, -1], [0, 0, -2]]] :=
  C140_reverse_partial (f := log) (by intro is xs; simp [log]) (node := sample) rfl sample_served
    (by simp [sample, Node.Perfect]) sample_trace (xs := [[]]) (by simp)

/-- What a loop nest writes down. -/
def written (node : Node) (rev : Bool) : Option (List (List (List Int))) :=
  (generateForLoop node 1 rev).bind fun p => result log p [[]]

/-- `for (c0 = 0; c0 < 2; c0 += 1) { S(c0, 0); S(c0, 1); }` -/
def pairs : Node :=
  .loop 0 (num 0) false (num 2) (num 1) (.block [.user [var 0, num 0], .user [var 0, num 1]])

example : ∃ us : List (List Int), us.Perm [[0, 0], [0, 1], [1, 0], [1, 1]] ∧ ∃ p,
    generateForLoop pairs 1 true = some p ∧
    result log p [[]] = some (us.foldl (fun a is => log is a) [[]]) :=
  C140_reverse_once_partial (f := log) (by intro is xs; simp [log]) (node := pairs) rfl
    (by
      simp only [pairs, Node.Served]
      exact ⟨by decide, by decide, by decide, by decide, ⟨[false, false], by decide, by decide⟩,
        ⟨[false, false], by decide, by decide⟩, trivial⟩)
    (by decide +kernel) (xs := [[]]) (by simp)

/-- Sequences are not reversed. -/
theorem C140_violated_sequence :
    trace pairs (fun _ => none) = some [[0, 0], [0, 1], [1, 0], [1, 1]] ∧
    written pairs false = some [[[0, 0], [0, 1], [1, 0], [1, 1]]] ∧
    written pairs true = some [[[1, 0], [1, 1], [0, 0], [0, 1]]] := by decide +kernel

/-- `for (c0 = 0; c0 < 2; c0 += 1) S(c0);` -/
def upTo (n : Int) : Node := .loop 0 (num 0) false (num n) (num 1) (.user [var 0])

/-- Of two loops in sequence the results of the first are returned. -/
theorem C140_violated_root : trace (.block [upTo 2, upTo 1]) (fun _ => none) = some [[0], [1], [0]] ∧
    written (.block [upTo 2, upTo 1]) false = some [[[0], [1]]] := by decide +kernel

/-- The loop that is returned for a conditional is in a region of the conditional. -/
theorem C140_violated_region :
    trace (.ifThen (.op (.cmp .eq) [num 0, num 0]) (upTo 2)) (fun _ => none) = some [[0], [1]] ∧
    (generateForLoop (.ifThen (.op (.cmp .eq) [num 0, num 0]) (upTo 2)) 1 false).isSome ∧
    written (.ifThen (.op (.cmp .eq) [num 0, num 0]) (upTo 2)) false = none := by decide +kernel

/-- For a single point there is no loop to return. -/
theorem C140_violated_point : trace (.user [num 3]) (fun _ => none) = some [[3]] ∧
    generateForLoop (.user [num 3]) 1 false = none := ⟨by decide +kernel, rfl⟩

/-- The variable of an inner loop of the same name is that of the outer loop. -/
theorem C140_violated_shadow :
    trace (.loop 0 (num 0) false (num 2) (num 1) (upTo 2)) (fun _ => none) =
      some [[0], [1], [0], [1]] ∧
    written (.loop 0 (num 0) false (num 2) (num 1) (upTo 2)) false =
      some [[[0], [0], [1], [1]]] := by decide +kernel

/-- `for (c0 = 2147483647; c0 <= 2147483647; c0 += 1) S(c0);` runs no iteration. -/
theorem C140_violated_overflow :
    written (.loop 0 (num 2147483647) true (num 2147483647) (num 1) (.user [var 0])) false =
      some [[]] := by decide +kernel

/-- `&&` and `||` of isl that stop early are not supported. -/
theorem C140_violated_operator (rev : Bool) :
    generateForLoop (.loop 0 (num 0) false (num 2) (num 1)
      (.ifThen (.op .other [.op (.cmp .eq) [num 0, num 0]]) (.user [var 0]))) 1 rev = none := by
  cases rev <;> rfl

end Heir.Codegen
