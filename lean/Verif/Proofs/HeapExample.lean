import Verif.Proofs.HeapAnalyze

/-! The run of `RegexpQuery` on `xx([abc]|d.*e)` with Go's slice growth, step by step. -/

namespace Hound
namespace BadRun

def b1 : HSt × HInfo :=
  (⟨⟨[[[120, 120]]]⟩, false⟩, ⟨false, some ⟨some 0, 1⟩, ⟨none, 0⟩, ⟨none, 0⟩, .mk .all [] []⟩)

theorem b1_eq {orbit : Rune → List Rune} : HInfo.analyze goGrow orbit (.literal [120,120] false) ⟨⟨[]⟩, false⟩ = b1 := by
  rfl

def b2 : HSt × HInfo :=
  (⟨⟨[[[120, 120]], [[97]], [[97], [98]], [[97], [98], [99], []]]⟩, false⟩, ⟨false, some ⟨some
    3, 3⟩, ⟨none, 0⟩, ⟨none, 0⟩, .mk .all [] []⟩)

theorem b2_eq {orbit : Rune → List Rune} : HInfo.analyze goGrow orbit (.charClass [(97,99)]) b1.1 = b2 := by
  rfl

def b3 : HSt × HInfo :=
  (⟨⟨[[[120, 120]], [[97]], [[97], [98]], [[97], [98], [99], []], [[100]]]⟩, false⟩, ⟨false,
    some ⟨some 4, 1⟩, ⟨none, 0⟩, ⟨none, 0⟩, .mk .all [] []⟩)

theorem b3_eq {orbit : Rune → List Rune} : HInfo.analyze goGrow orbit (.literal [100] false) b2.1 = b3 := by
  rfl

def b4 : HSt × HInfo :=
  (⟨⟨[[[120, 120]], [[97]], [[97], [98]], [[97], [98], [99], []], [[100]], [[]], [[]]]⟩, false⟩,
    ⟨true, none, ⟨some 5, 1⟩, ⟨some 6, 1⟩, .mk .all [] []⟩)

theorem b4_eq {orbit : Rune → List Rune} : HInfo.analyze goGrow orbit (.star .anyCharNotNL) b3.1 = b4 := by
  rfl

def b5 : HSt × HInfo :=
  (⟨⟨[[[120, 120]], [[97]], [[97], [98]], [[97], [98], [99], []], [[100]], [[]], [[]],
    [[100]]]⟩, false⟩, ⟨false, none, ⟨some 7, 1⟩, ⟨some 6, 1⟩, .mk .all [] []⟩)

theorem b5_eq : HInfo.concat goGrow b3.2 b4.2 b4.1 = b5 := by
  rfl

def b6 : HSt × HInfo :=
  (⟨⟨[[[120, 120]], [[97]], [[97], [98]], [[97], [98], [99], []], [[100]], [[]], [[]], [[100]],
    [[101]]]⟩, false⟩, ⟨false, some ⟨some 8, 1⟩, ⟨none, 0⟩, ⟨none, 0⟩, .mk .all [] []⟩)

theorem b6_eq {orbit : Rune → List Rune} : HInfo.analyze goGrow orbit (.literal [101] false) b5.1 = b6 := by
  rfl

def b7 : HSt × HInfo :=
  (⟨⟨[[[120, 120]], [[97]], [[97], [98]], [[97], [98], [99], []], [[100]], [[]], [[]], [[100]],
    [[101]], [[101]]]⟩, false⟩, ⟨false, none, ⟨some 7, 1⟩, ⟨some 9, 1⟩, .mk .all [] []⟩)

theorem b7_eq : HInfo.concat goGrow b5.2 b6.2 b6.1 = b7 := by
  rfl

def b8 : HSt × HInfo :=
  (⟨⟨[[[120, 120]], [[97]], [[97], [98]], [[97], [98], [99], [101]], [[100]], [[]], [[]],
    [[100]], [[101]], [[101]]]⟩, true⟩, ⟨false, none, ⟨some 3, 4⟩, ⟨some 3, 4⟩, .mk .all [] []⟩)

theorem b8_eq : HInfo.alternate goGrow b2.2 b7.2 b7.1 = b8 := by
  rfl

def b9 : HSt × HInfo :=
  (⟨⟨[[[120, 120]], [[97]], [[97], [98]], [[97], [98], [99], [101]], [[100]], [[]], [[]],
    [[100]], [[101]], [[101]], [[120, 120, 97]], [[120, 120, 97], [120, 120, 98]], [[120, 120],
    [120, 120, 98], [120, 120, 99], [120, 120, 101]]]⟩, true⟩, ⟨false, none, ⟨some 12, 1⟩, ⟨some
    3, 4⟩, .mk .or [[120, 120, 97], [120, 120, 98], [120, 120, 99], [120, 120, 101]] []⟩)

theorem b9_eq : HInfo.concat goGrow b1.2 b8.2 b8.1 = b9 := by
  rfl

def b10 : Heap × HInfo :=
  (⟨[[[120, 120]], [[97]], [[97], [98]], [[97], [98], [99], [101]], [[100]], [[]], [[]],
    [[100]], [[101]], [[101]], [[120, 120, 97]], [[120, 120, 97], [120, 120, 98]], [[120, 120],
    [120, 120, 98], [120, 120, 99], [120, 120, 101]]]⟩, ⟨false, none, ⟨some 12, 1⟩, ⟨some 3, 4⟩,
    .mk .or [[120, 120, 97], [120, 120, 98], [120, 120, 99], [120, 120, 101]] []⟩)

theorem b10_eq : HInfo.simplify goGrow b9.1.heap b9.2 true = b10 := by
  rfl


end BadRun

/-- `xx([abc]|d.*e)` -/
def badRe : Re :=
  .concat [.literal [120, 120] false,
    .capture (.alternate [.charClass [(97, 99)],
      .concat [.literal [100] false, .star .anyCharNotNL, .literal [101] false]])]

open BadRun in
/-- The query is `xxa | xxb | xxc | xxe`, and the flag is up. -/
theorem badRe_query {orbit : Rune → List Rune} : HInfo.regexpQuery goGrow orbit badRe =
    (.mk .or [[120, 120, 97], [120, 120, 98], [120, 120, 99], [120, 120, 101]] [], true) := by
  have h : HInfo.analyze goGrow orbit badRe ⟨⟨[]⟩, false⟩ = b9 := by
    unfold badRe
    rw [HInfo.analyze, b1_eq]
    simp only [HInfo.foldConcat]
    rw [HInfo.analyze, HInfo.analyze, b2_eq]
    simp only [HInfo.foldAlternate]
    rw [HInfo.analyze, b3_eq]
    simp only [HInfo.foldConcat]
    rw [b4_eq, b5_eq, b6_eq, b7_eq, b8_eq, b9_eq]
  unfold HInfo.regexpQuery
  rw [h]
  simp only [b10_eq]
  rfl

namespace OkRun

def b1 : HSt × HInfo :=
  (⟨⟨[[[102, 111, 111]]]⟩, false⟩, ⟨false, some ⟨some 0, 1⟩, ⟨none, 0⟩, ⟨none, 0⟩, .mk .all []
    []⟩)

theorem b1_eq : HInfo.analyze goGrow (fun _ => []) (.literal [102,111,111] false) ⟨⟨[]⟩, false⟩ = b1 := by
  rfl

def b2 : HSt × HInfo :=
  (⟨⟨[[[102, 111, 111]], [[98, 97, 114]]]⟩, false⟩, ⟨false, some ⟨some 1, 1⟩, ⟨none, 0⟩, ⟨none,
    0⟩, .mk .all [] []⟩)

theorem b2_eq : HInfo.analyze goGrow (fun _ => []) (.literal [98,97,114] false) b1.1 = b2 := by
  rfl

def b3 : HSt × HInfo :=
  (⟨⟨[[[102, 111, 111]], [[98, 97, 114]], [[]], [[]]]⟩, false⟩, ⟨true, none, ⟨some 2, 1⟩, ⟨some
    3, 1⟩, .mk .all [] []⟩)

theorem b3_eq : HInfo.analyze goGrow (fun _ => []) (.star .anyCharNotNL) b2.1 = b3 := by
  rfl

def b4 : HSt × HInfo :=
  (⟨⟨[[[102, 111, 111]], [[98, 97, 114]], [[]], [[]], [[], [98, 97]], [[], [97, 114]]]⟩, false⟩,
    ⟨true, none, ⟨some 4, 1⟩, ⟨some 5, 1⟩, .mk .all [] []⟩)

theorem b4_eq : HInfo.alternate goGrow b2.2 b3.2 b3.1 = b4 := by
  rfl

def b5 : HSt × HInfo :=
  (⟨⟨[[[102, 111, 111]], [[98, 97, 114]], [[]], [[]], [[], [98, 97]], [[], [97, 114]], [[102,
    111]]]⟩, false⟩, ⟨false, none, ⟨some 6, 1⟩, ⟨some 5, 1⟩, .mk (QOp.and) [[102, 111, 111]]
    []⟩)

theorem b5_eq : HInfo.concat goGrow b1.2 b4.2 b4.1 = b5 := by
  rfl

def b6 : Heap × HInfo :=
  (⟨[[[102, 111, 111]], [[98, 97, 114]], [[]], [[]], [[], [98, 97]], [[], [97, 114]], [[102,
    111]]]⟩, ⟨false, none, ⟨some 6, 1⟩, ⟨some 5, 1⟩, .mk (QOp.and) [[102, 111, 111]] []⟩)

theorem b6_eq : HInfo.simplify goGrow b5.1.heap b5.2 true = b6 := by
  rfl


end OkRun

/-- `foo(bar|.*)` -/
def okRe : Re := .concat [.literal [102, 111, 111] false,
  .capture (.alternate [.literal [98, 97, 114] false, .star .anyCharNotNL])]

open OkRun in
/-- The query is `foo`, and the flag is down. -/
theorem okRe_query : HInfo.regexpQuery goGrow (fun _ => []) okRe =
    (.mk .and [[102, 111, 111]] [], false) := by
  have h : HInfo.analyze goGrow (fun _ => []) okRe ⟨⟨[]⟩, false⟩ = b5 := by
    unfold okRe
    rw [HInfo.analyze, b1_eq]
    simp only [HInfo.foldConcat]
    rw [HInfo.analyze, HInfo.analyze, b2_eq]
    simp only [HInfo.foldAlternate]
    rw [b3_eq, b4_eq, b5_eq]
  unfold HInfo.regexpQuery
  rw [h]
  simp only [b6_eq]
  rfl

end Hound
