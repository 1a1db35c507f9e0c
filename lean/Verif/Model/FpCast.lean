import Verif.Model.FpMach
/-!
codegen.c:1004-1116: the part of `cast_table` whose row or column is a floating type. `d` is the choice between
the forms for float and for double.
-/
set_option autoImplicit false
namespace Slimcc.FP
open Slimcc.Spec.FP Slimcc.X86 Slimcc.Ty Slimcc.Gen

/-- `ofs(%rsp)` -/
def at_ (ofs : Int) : MemOp := .off rsp ofs

/-- codegen.c:1008, 1010 `i32f32`, `i32f64`. -/
def i32f (d : Bool) : List FLine := [.i (.cvtsi d 4 .ax 0)]
/-- codegen.c:1011 -/
def i32f80 : List FLine := [.i .push, .i (.fild 4 (at_ 0)), .i .pop]
/-- codegen.c:1013, 1015 `u32f32`, `u32f64`. -/
def u32f (d : Bool) : List FLine := [.i (.gp (.mov 4 (.reg .ax) (.reg .ax))), .i (.cvtsi d 8 .ax 0)]
/-- codegen.c:1016 -/
def u32f80 : List FLine := [.i (.gp (.mov 4 (.reg .ax) (.reg .ax))), .i .push, .i (.fild 8 (at_ 0)), .i .pop]
/-- codegen.c:1018, 1019 `i64f32`, `i64f64`. -/
def i64f (d : Bool) : List FLine := [.i (.cvtsi d 8 .ax 0)]
/-- codegen.c:1020 -/
def i64f80 : List FLine := [.i .push, .i (.fild 8 (at_ 0)), .i .pop]
/-- codegen.c:1022-1029 `u64f32`, `u64f64`. `js` after `test` is the condition "less". -/
def u64f (d : Bool) : List FLine := [
  .i (.gp (.test 8 (.reg .ax) (.reg .ax))), .jcc .l 1, .i (.pxor 0 0), .i (.cvtsi d 8 .ax 0), .jmp 2,
  .lab 1, .i (.gp (.mov 8 (.reg .ax) (.reg .dx))), .i (.gp (.alu .and 4 (.imm 1) (.reg .ax))), .i (.pxor 0 0),
  .i (.gp (.shft .shr 8 (.imm 1) .dx)),
  .i (.gp (.alu .or 8 (.reg .ax) (.reg .dx))), .i (.cvtsi d 8 .dx 0), .i (.adds d 0 0), .lab 2]
/-- codegen.c:1030-1032. `jns` after `test` is the condition "greater or equal". -/
def u64f80 : List FLine := [
  .i .push, .i (.fild 8 (at_ 0)), .i (.gp (.test 8 (.reg .ax) (.reg .ax))), .jcc .ge 1,
  .i (.gp (.mov 4 (.imm 1602224128) (.reg .ax))), .i (.gp (.mov 4 (.reg .ax) (.mem (at_ 4)))), .i (.fadd false (at_ 4)),
  .lab 1, .i .pop]

/-- codegen.c:1034-1040, 1048-1054 -/
def fi8 (d : Bool) : List FLine := [.i (.cvtt d 4 0 .ax), .i (.gp (.movx true 1 4 (.reg .ax) .ax))]
def fu8 (d : Bool) : List FLine := [.i (.cvtt d 4 0 .ax), .i (.gp (.movx false 1 4 (.reg .ax) .ax))]
def fi16 (d : Bool) : List FLine := [.i (.cvtt d 4 0 .ax), .i (.gp (.movx true 2 4 (.reg .ax) .ax))]
def fu16 (d : Bool) : List FLine := [.i (.cvtt d 4 0 .ax), .i (.gp (.movx false 2 4 (.reg .ax) .ax))]
def fi32 (d : Bool) : List FLine := [.i (.cvtt d 4 0 .ax)]
def fu32 (d : Bool) : List FLine := [.i (.cvtt d 8 0 .ax)]
def fi64 (d : Bool) : List FLine := [.i (.cvtt d 8 0 .ax)]
/-- codegen.c:1041-1044, 1055-1058 `f32u64`, `f64u64`. -/
def fu64 (d : Bool) : List FLine := [
  .i (.cvtt d 8 0 .cx), .i (.gp (.mov 8 (.reg .cx) (.reg .dx))),
  .i (.gp (if d then .mov 8 (.imm 0x43e0000000000000) (.reg .ax) else .mov 4 (.imm 0x5F000000) (.reg .ax))),
  .i (.movg d .ax 1), .i (.subs d 1 0), .i (.cvtt d 8 0 .ax),
  .i (.gp (.shft .sar 8 (.imm 63) .dx)), .i (.gp (.alu .and 8 (.reg .dx) (.reg .ax))), .i (.gp (.alu .or 8 (.reg .cx) (.reg .ax)))]
/-- codegen.c:1045, 1059 `f32f64`, `f64f32`. -/
def ff (d : Bool) : List FLine := [.i (.cvtf d 0 0)]
/-- codegen.c:1046, 1060 `f32f80`, `f64f80`. -/
def ff80 (d : Bool) : List FLine := [
  .i (.gp (.alu .sub 8 (.imm 8) (.reg rsp))), .i (.movst d 0 (at_ 0)), .i (.fld d (at_ 0)), .i (.gp (.alu .add 8 (.imm 8) (.reg rsp)))]

/-- codegen.c:1062-1064 `FROM_F80_1`. `or $12, %ah` is the `or` of 12 * 256 to `%ax`. -/
def fromF80 : List FLine := [
  .i (.gp (.alu .sub 8 (.imm 24) (.reg rsp))), .i (.fnstcw (at_ 14)), .i (.gp (.movx false 2 4 (.mem (at_ 14)) .ax)),
  .i (.gp (.alu .or 2 (.imm 0xc00) (.reg .ax))), .i (.gp (.mov 2 (.reg .ax) (.mem (at_ 12)))), .i (.fldcw (at_ 12))]

/-- codegen.c:1066-1067 `FROM_F80_2`, `FROM_F80_3` around the load `ld`. -/
def f80int (sz : Nat) (ld : Ins) : List FLine :=
  fromF80 ++ [.i (.fistp sz (at_ 0)), .i (.fldcw (at_ 14)), .i (.gp ld), .i (.gp (.alu .add 8 (.imm 24) (.reg rsp)))]

/-- codegen.c:1069-1075 -/
def f80i8 : List FLine := f80int 2 (.movx true 1 4 (.mem (at_ 0)) .ax)
def f80u8 : List FLine := f80int 2 (.movx false 1 4 (.mem (at_ 0)) .ax)
def f80i16 : List FLine := f80int 2 (.movx false 1 4 (.mem (at_ 0)) .ax)
def f80u16 : List FLine := f80int 4 (.movx true 2 4 (.mem (at_ 0)) .ax)
def f80i32 : List FLine := f80int 4 (.mov 4 (.mem (at_ 0)) (.reg .ax))
def f80u32 : List FLine := f80int 4 (.mov 4 (.mem (at_ 0)) (.reg .ax))
def f80i64 : List FLine := f80int 8 (.mov 8 (.mem (at_ 0)) (.reg .ax))
/-- codegen.c:1076-1080 -/
def f80u64 : List FLine := [
  .i (.gp (.alu .sub 8 (.imm 16) (.reg rsp))), .i (.gp (.mov 4 (.imm 0x5f000000) (.mem (at_ 12)))), .i (.fld false (at_ 12)),
  .i .fucomi, .i (.gp (.set .be .ax)), .i .fldz, .i .fcmovbe, .i .fstp1, .i .fsubrp, .i (.fnstcw (at_ 4)),
  .i (.gp (.movx false 2 4 (.mem (at_ 4)) .cx)), .i (.gp (.alu .or 4 (.imm 3072) (.reg .cx))), .i (.gp (.mov 2 (.reg .cx) (.mem (at_ 6)))),
  .i (.fldcw (at_ 6)), .i (.fistp 8 (at_ 8)), .i (.fldcw (at_ 4)), .i (.gp (.shft .shl 8 (.imm 63) .ax)),
  .i (.gp (.alu .xor 8 (.mem (at_ 8)) (.reg .ax))), .i (.gp (.alu .add 8 (.imm 16) (.reg rsp)))]
/-- codegen.c:1082-1083 `f80f32`, `f80f64`. -/
def f80f (d : Bool) : List FLine := [
  .i (.gp (.alu .sub 8 (.imm 8) (.reg rsp))), .i (.fstp d (at_ 0)), .i (.movld d (at_ 0) 0), .i (.gp (.alu .add 8 (.imm 8) (.reg rsp)))]

/-- codegen.c:1085-1094, columns f32, f64, f80 of the integer rows. -/
def toFloat : TId → FTy → List FLine
  | .i8, t | .i16, t | .i32, t | .u8, t | .u16, t =>
    match t with | .float => i32f false | .double => i32f true | .ldouble => i32f80
  | .i64, t => match t with | .float => i64f false | .double => i64f true | .ldouble => i64f80
  | .u32, t => match t with | .float => u32f false | .double => u32f true | .ldouble => u32f80
  | .u64, t => match t with | .float => u64f false | .double => u64f true | .ldouble => u64f80

/-- codegen.c:1097-1099, integer columns of the floating rows. -/
def fromFloat : FTy → TId → List FLine
  | .float, t => match t with
    | .i8 => fi8 false | .i16 => fi16 false | .i32 => fi32 false | .i64 => fi64 false
    | .u8 => fu8 false | .u16 => fu16 false | .u32 => fu32 false | .u64 => fu64 false
  | .double, t => match t with
    | .i8 => fi8 true | .i16 => fi16 true | .i32 => fi32 true | .i64 => fi64 true
    | .u8 => fu8 true | .u16 => fu16 true | .u32 => fu32 true | .u64 => fu64 true
  | .ldouble, t => match t with
    | .i8 => f80i8 | .i16 => f80i16 | .i32 => f80i32 | .i64 => f80i64
    | .u8 => f80u8 | .u16 => f80u16 | .u32 => f80u32 | .u64 => f80u64

/-- codegen.c:1097-1099, floating columns. -/
def floatFloat : FTy → FTy → List FLine
  | .float, .float | .double, .double | .ldouble, .ldouble => []
  | .float, .double => ff false
  | .float, .ldouble => ff80 false
  | .double, .float => ff true
  | .double, .ldouble => ff80 true
  | .ldouble, .float => f80f false
  | .ldouble, .double => f80f true

end Slimcc.FP
