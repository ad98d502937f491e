import Verif.Util

/-!
# The instruction set (src/runtime/instruct.h)

The opcode numbers are the positions in `enum instructions`
(src/runtime/instruct.h:7-215); src/compiler/Opcodes.sml is generated from the
same file, so emitter and interpreter share them.
-/

namespace Mosml.Emit.Opc

abbrev CONSTBYTE : Nat := 0
abbrev CONSTSHORT : Nat := 1
abbrev SWITCH : Nat := 2
abbrev BRANCH : Nat := 3
abbrev BRANCHIF : Nat := 4
abbrev BRANCHIFNOT : Nat := 5
abbrev POPBRANCHIFNOT : Nat := 6
abbrev BRANCHIFNEQTAG : Nat := 7
abbrev BRANCHIFEQ : Nat := 8
abbrev BRANCHIFNEQ : Nat := 9
abbrev BRANCHIFLT : Nat := 10
abbrev BRANCHIFGT : Nat := 11
abbrev BRANCHIFLE : Nat := 12
abbrev BRANCHIFGE : Nat := 13
abbrev BRANCHINTERVAL : Nat := 14
abbrev C_CALL1 : Nat := 15
abbrev C_CALL2 : Nat := 16
abbrev C_CALL3 : Nat := 17
abbrev C_CALL4 : Nat := 18
abbrev C_CALL5 : Nat := 19
abbrev C_CALLN : Nat := 20
abbrev MAKEBLOCK : Nat := 21
abbrev MAKEBLOCK1 : Nat := 22
abbrev MAKEBLOCK2 : Nat := 23
abbrev MAKEBLOCK3 : Nat := 24
abbrev MAKEBLOCK4 : Nat := 25
abbrev TAGOF : Nat := 26
abbrev ACCESS : Nat := 27
abbrev ACC0 : Nat := 28
abbrev ACC1 : Nat := 29
abbrev ACC2 : Nat := 30
abbrev ACC3 : Nat := 31
abbrev ACC4 : Nat := 32
abbrev ACC5 : Nat := 33
abbrev ACC6 : Nat := 34
abbrev ACC7 : Nat := 35
abbrev PUSHACC : Nat := 36
abbrev PUSHACC0 : Nat := 37
abbrev PUSHACC1 : Nat := 38
abbrev PUSHACC2 : Nat := 39
abbrev PUSHACC3 : Nat := 40
abbrev PUSHACC4 : Nat := 41
abbrev PUSHACC5 : Nat := 42
abbrev PUSHACC6 : Nat := 43
abbrev PUSHACC7 : Nat := 44
abbrev ENVACC : Nat := 45
abbrev ENV1 : Nat := 46
abbrev ENV2 : Nat := 47
abbrev ENV3 : Nat := 48
abbrev ENV4 : Nat := 49
abbrev ENV5 : Nat := 50
abbrev ENV6 : Nat := 51
abbrev ENV7 : Nat := 52
abbrev PUSHENVACC : Nat := 53
abbrev PUSHENV1 : Nat := 54
abbrev PUSHENV2 : Nat := 55
abbrev PUSHENV3 : Nat := 56
abbrev PUSHENV4 : Nat := 57
abbrev PUSHENV5 : Nat := 58
abbrev PUSHENV6 : Nat := 59
abbrev PUSHENV7 : Nat := 60
abbrev PUSH_ENV1_APPLY1 : Nat := 61
abbrev PUSH_ENV1_APPLY2 : Nat := 62
abbrev PUSH_ENV1_APPLY3 : Nat := 63
abbrev PUSH_ENV1_APPLY4 : Nat := 64
abbrev PUSH_ENV1_APPTERM1 : Nat := 65
abbrev PUSH_ENV1_APPTERM2 : Nat := 66
abbrev PUSH_ENV1_APPTERM3 : Nat := 67
abbrev PUSH_ENV1_APPTERM4 : Nat := 68
abbrev PUSHATOM : Nat := 69
abbrev ATOM : Nat := 70
abbrev PUSHATOM0 : Nat := 71
abbrev ATOM0 : Nat := 72
abbrev ATOM1 : Nat := 73
abbrev ATOM2 : Nat := 74
abbrev ATOM3 : Nat := 75
abbrev ATOM4 : Nat := 76
abbrev ATOM5 : Nat := 77
abbrev ATOM6 : Nat := 78
abbrev ATOM7 : Nat := 79
abbrev ATOM8 : Nat := 80
abbrev ATOM9 : Nat := 81
abbrev CONSTINT : Nat := 82
abbrev PUSHCONSTINT : Nat := 83
abbrev CONST0 : Nat := 84
abbrev CONST1 : Nat := 85
abbrev CONST2 : Nat := 86
abbrev CONST3 : Nat := 87
abbrev PUSHCONST0 : Nat := 88
abbrev PUSHCONST1 : Nat := 89
abbrev PUSHCONST2 : Nat := 90
abbrev PUSHCONST3 : Nat := 91
abbrev GETFIELD : Nat := 92
abbrev GETFIELD0 : Nat := 93
abbrev GETFIELD1 : Nat := 94
abbrev GETFIELD2 : Nat := 95
abbrev GETFIELD3 : Nat := 96
abbrev GETFIELD0_0 : Nat := 97
abbrev GETFIELD0_1 : Nat := 98
abbrev GETFIELD1_0 : Nat := 99
abbrev GETFIELD1_1 : Nat := 100
abbrev SETFIELD : Nat := 101
abbrev SETFIELD0 : Nat := 102
abbrev SETFIELD1 : Nat := 103
abbrev SETFIELD2 : Nat := 104
abbrev SETFIELD3 : Nat := 105
abbrev GETGLOBAL : Nat := 106
abbrev PUSH_GETGLOBAL : Nat := 107
abbrev PUSH_GETGLOBAL_APPLY1 : Nat := 108
abbrev PUSH_GETGLOBAL_APPLY2 : Nat := 109
abbrev PUSH_GETGLOBAL_APPLY3 : Nat := 110
abbrev PUSH_GETGLOBAL_APPLY4 : Nat := 111
abbrev PUSH_GETGLOBAL_APPTERM1 : Nat := 112
abbrev PUSH_GETGLOBAL_APPTERM2 : Nat := 113
abbrev PUSH_GETGLOBAL_APPTERM3 : Nat := 114
abbrev PUSH_GETGLOBAL_APPTERM4 : Nat := 115
abbrev SETGLOBAL : Nat := 116
abbrev PUSH_RETADDR : Nat := 117
abbrev APPLY : Nat := 118
abbrev APPLY1 : Nat := 119
abbrev APPLY2 : Nat := 120
abbrev APPLY3 : Nat := 121
abbrev APPLY4 : Nat := 122
abbrev APPTERM : Nat := 123
abbrev APPTERM1 : Nat := 124
abbrev APPTERM2 : Nat := 125
abbrev APPTERM3 : Nat := 126
abbrev APPTERM4 : Nat := 127
abbrev RESTART : Nat := 128
abbrev GRAB : Nat := 129
abbrev RETURN1 : Nat := 130
abbrev RETURN2 : Nat := 131
abbrev RETURN : Nat := 132
abbrev CLOSURE : Nat := 133
abbrev CLOSREC : Nat := 134
abbrev DUMMY : Nat := 135
abbrev UPDATE : Nat := 136
abbrev PUSHTRAP : Nat := 137
abbrev RAISE : Nat := 138
abbrev POPTRAP : Nat := 139
abbrev SWAP : Nat := 140
abbrev PUSH : Nat := 141
abbrev POP : Nat := 142
abbrev ASSIGN : Nat := 143
abbrev BOOLNOT : Nat := 144
abbrev ADDINT : Nat := 145
abbrev SUBINT : Nat := 146
abbrev MULINT : Nat := 147
abbrev DIVINT : Nat := 148
abbrev MODINT : Nat := 149
abbrev ANDINT : Nat := 150
abbrev ORINT : Nat := 151
abbrev XORINT : Nat := 152
abbrev SHIFTLEFTINT : Nat := 153
abbrev SHIFTRIGHTINTSIGNED : Nat := 154
abbrev SHIFTRIGHTINTUNSIGNED : Nat := 155
abbrev EQ : Nat := 156
abbrev NEQ : Nat := 157
abbrev LTINT : Nat := 158
abbrev GTINT : Nat := 159
abbrev LEINT : Nat := 160
abbrev GEINT : Nat := 161
abbrev FLOATOFINT : Nat := 162
abbrev SMLNEGFLOAT : Nat := 163
abbrev SMLADDFLOAT : Nat := 164
abbrev SMLSUBFLOAT : Nat := 165
abbrev SMLMULFLOAT : Nat := 166
abbrev SMLDIVFLOAT : Nat := 167
abbrev INTOFFLOAT : Nat := 168
abbrev EQFLOAT : Nat := 169
abbrev NEQFLOAT : Nat := 170
abbrev LTFLOAT : Nat := 171
abbrev GTFLOAT : Nat := 172
abbrev LEFLOAT : Nat := 173
abbrev GEFLOAT : Nat := 174
abbrev STRINGLENGTH : Nat := 175
abbrev GETSTRINGCHAR : Nat := 176
abbrev SETSTRINGCHAR : Nat := 177
abbrev EQSTRING : Nat := 178
abbrev NEQSTRING : Nat := 179
abbrev LTSTRING : Nat := 180
abbrev GTSTRING : Nat := 181
abbrev LESTRING : Nat := 182
abbrev GESTRING : Nat := 183
abbrev MAKEVECTOR : Nat := 184
abbrev VECTLENGTH : Nat := 185
abbrev GETVECTITEM : Nat := 186
abbrev SETVECTITEM : Nat := 187
abbrev SMLNEGINT : Nat := 188
abbrev SMLSUCCINT : Nat := 189
abbrev SMLPREDINT : Nat := 190
abbrev SMLADDINT : Nat := 191
abbrev SMLSUBINT : Nat := 192
abbrev SMLMULINT : Nat := 193
abbrev SMLDIVINT : Nat := 194
abbrev SMLMODINT : Nat := 195
abbrev MAKEREFVECTOR : Nat := 196
abbrev SMLQUOTINT : Nat := 197
abbrev SMLREMINT : Nat := 198
abbrev CHECK_SIGNALS : Nat := 199
abbrev STOP : Nat := 200
abbrev EQUNSIGN : Nat := 201
abbrev NEQUNSIGN : Nat := 202
abbrev LTUNSIGN : Nat := 203
abbrev GTUNSIGN : Nat := 204
abbrev LEUNSIGN : Nat := 205
abbrev GEUNSIGN : Nat := 206

end Mosml.Emit.Opc
