/-
The constant fragments of `/repo/pretty-arena/src/lib.rs:604-972`: name, text and declared number of graphemes of every
`const_str!`, and name, broken and unbroken text of every `const_break!`. Extracted from the file in order.
-/
namespace Verif.Pretty

/-- `lib.rs:604-937` `const_str!`. -/
def constStrs : List (String × String × Nat) :=
  [("SPACE_DOCUMENT", " ", 1),
   ("MODULE_COMMENT_DOCUMENT", "////", 4),
   ("DOC_COMMENT_DOCUMENT", "///", 3),
   ("CONST_SPACE_DOCUMENT", "const ", 5),
   ("OPAQUE_TYPE_SPACE_DOCUMENT", "opaque type ", 12),
   ("TYPE_SPACE_DOCUMENT", "type ", 5),
   ("IMPORT_SPACE_DOCUMENT", "import ", 7),
   ("SPACE_AS_SPACE_DOCUMENT", " as ", 4),
   ("SPACE_EQUAL_SPACE_DOCUMENT", " = ", 3),
   ("TODO_DOCUMENT", "todo", 4),
   ("CONCAT_DOCUMENT", "<>", 2),
   ("DOT_DOCUMENT", ".", 1),
   ("DOT_DOT_DOCUMENT", "..", 2),
   ("COLON_SPACE_DOCUMENT", ": ", 2),
   ("OPEN_CURLY_DOCUMENT", "{", 1),
   ("CLOSE_CURLY_DOCUMENT", "}", 1),
   ("OPEN_SQUARE_DOCUMENT", "[", 1),
   ("CLOSE_SQUARE_DOCUMENT", "]", 1),
   ("OPEN_CLOSE_SQUARE_DOCUMENT", "[]", 2),
   ("COMMENT_DOCUMENT", "//", 2),
   ("ECHO_SPACE_DOCUMENT", "echo ", 5),
   ("AS_DOCUMENT", "as", 2),
   ("SPACE_AS_DOCUMENT", " as", 2),
   ("OPEN_PAREN_DOCUMENT", "(", 1),
   ("CLOSE_PAREN_DOCUMENT", ")", 1),
   ("OPEN_CLOSE_PAREN_DOCUMENT", "()", 2),
   ("USE_DOCUMENT", "use", 3),
   ("USE_AND_ARROW_DOCUMENT", "use <-", 6),
   ("LEFT_ARROW_DOCUMENT", "<-", 2),
   ("MINUS_SPACE_DOCUMENT", "- ", 2),
   ("EXCLAMATION_MARK_DOCUMENT", "!", 1),
   ("ASSERT_SPACE_DOCUMENT", "assert ", 7),
   ("PIPE_SPACE_DOCUMENT", "|> ", 3),
   ("COLON_DOCUMENT", ":", 1),
   ("HASHTAG_DOCUMENT", "#", 1),
   ("SPACE_OPEN_CURLY_DOCUMENT", " {", 2),
   ("EMPTY_TUPLE_DOCUMENT", "#()", 3),
   ("OPEN_TUPLE_DOCUMENT", "#(", 2),
   ("FN_DOCUMENT", "fn", 2),
   ("FN_SPACE_DOCUMENT", "fn ", 3),
   ("PANIC_DOCUMENT", "panic", 5),
   ("IF_SPACE_DOCUMENT", "if ", 2),
   ("SPACE_RIGHT_ARROW_DOCUMENT", " ->", 3),
   ("SPACE_RIGHT_ARROW_SPACE_DOCUMENT", " -> ", 4),
   ("LET_SPACE_DOCUMENT", "let ", 4),
   ("LET_ASSERT_SPACE_DOCUMENT", "let assert ", 11),
   ("SPACE_EQUAL_DOCUMENT", " =", 2),
   ("UNDERSCORE_DOCUMENT", "_", 1),
   ("DOUBLE_QUOTE_DOCUMENT", "\"", 1),
   ("OPEN_PAREN_DOT_DOT_CLOSE_PAREN_DOCUMENT", "(..)", 4),
   ("VERTICAL_BAR_SPACE_DOCUMENT", "| ", 2),
   ("SPACE_CONCAT_SPACE_DOCUMENT", " <> ", 4),
   ("SPACE_PLUS_SPACE_DOCUMENT", " + ", 3),
   ("SPACE_MINUS_SPACE_DOCUMENT", " - ", 3),
   ("SPACE_TIMES_SPACE_DOCUMENT", " * ", 3),
   ("SPACE_MODULE_SPACE_DOCUMENT", " % ", 3),
   ("SPACE_SLASH_SPACE_DOCUMENT", " / ", 3),
   ("SPACE_CLOSE_CURLY_DOCUMENT", " }", 2),
   ("OPEN_CURLY_SPACE_DOCUMENT", "{ ", 2),
   ("CLOSE_BIT_ARRAY_DOCUMENT", ">>", 2),
   ("ECHO_DOCUMENT", "echo", 4),
   ("EMPTY_BIT_ARRAY_DOCUMENT", "<<>>", 4),
   ("OPEN_BIT_ARRAY_DOCUMENT", "<<", 2),
   ("RIGHT_ARROW_DOCUMENT", "->", 2),
   ("PUB_SPACE_DOCUMENT", "pub ", 4),
   ("SIZE_DOCUMENT", "size", 4),
   ("BYTES_DOCUMENT", "bytes", 5),
   ("BITS_DOCUMENT", "bits", 4),
   ("INT_DOCUMENT", "int", 3),
   ("FLOAT_DOCUMENT", "float", 5),
   ("UTF8_DOCUMENT", "utf8", 4),
   ("UTF16_DOCUMENT", "utf16", 5),
   ("UTF32_DOCUMENT", "utf32", 5),
   ("UTF8_CODEPOINT_DOCUMENT", "utf8_codepoint", 14),
   ("UTF16_CODEPOINT_DOCUMENT", "utf16_codepoint", 15),
   ("UTF32_CODEPOINT_DOCUMENT", "utf32_codepoint", 15),
   ("SIGNED_DOCUMENT", "signed", 6),
   ("UNSIGNED_DOCUMENT", "unsigned", 8),
   ("BIG_DOCUMENT", "big", 3),
   ("LITTLE_DOCUMENT", "little", 6),
   ("NATIVE_DOCUMENT", "native", 6),
   ("UNIT_DOCUMENT", "unit", 4),
   ("AND_DOCUMENT", "&&", 2),
   ("OR_DOCUMENT", "||", 2),
   ("LT_INT_DOCUMENT", "<", 1),
   ("LT_EQ_INT_DOCUMENT", "<=", 2),
   ("LT_FLOAT_DOCUMENT", "<.", 2),
   ("LT_EQ_FLOAT_DOCUMENT", "<=.", 3),
   ("EQ_DOCUMENT", "==", 2),
   ("NOT_EQ_DOCUMENT", "!=", 2),
   ("GT_EQ_INT_DOCUMENT", ">=", 2),
   ("GT_INT_DOCUMENT", ">", 1),
   ("GT_EQ_FLOAT_DOCUMENT", ">=.", 3),
   ("GT_FLOAT_DOCUMENT", ">.", 2),
   ("ADD_INT_DOCUMENT", "+", 1),
   ("ADD_FLOAT_DOCUMENT", "+.", 2),
   ("SUB_INT_DOCUMENT", "-", 1),
   ("SUB_FLOAT_DOCUMENT", "-.", 2),
   ("MULT_INT_DOCUMENT", "*", 1),
   ("MULT_FLOAT_DOCUMENT", "*.", 2),
   ("DIV_INT_DOCUMENT", "/", 1),
   ("DIV_FLOAT_DOCUMENT", "/.", 2),
   ("REMAINDER_INT_DOCUMENT", "%", 1),
   ("DEPRECATED_ATTRIBUTE_QUOTE_DOCUMENT", "@deprecated(\"", 13),
   ("QUOTE_CLOSE_PAREN_DOCUMENT", "\")", 2),
   ("EXTERNAL_ERLANG_QUOTE_DOCUMENT", "@external(erlang, \"", 19),
   ("EXTERNAL_JAVASCRIPT_QUOTE_DOCUMENT", "@external(javascript, \"", 23),
   ("QUOTE_COMMA_SPACE_QUOTE_DOCUMENT", "\", \"", 4),
   ("INTERNAL_ATTRIBUTE_DOCUMENT", "@internal", 9),
   ("INTERNAL_ATTRIBUTE_SPACE_DOCUMENT", "@internal ", 9),
   ("TRUE_LOWERCASE_DOCUMENT", "true", 4),
   ("FALSE_LOWERCASE_DOCUMENT", "false", 5),
   ("OPEN_CLOSE_CURLY_DOCUMENT", "{}", 2),
   ("SPACE_TIMES_AT_IGNORE_DOCUMENT", " * @ignore", 10),
   ("SLASH_TIMES_TIMES_DOCUMENT", "/**", 3),
   ("SPACE_TIMES_SLASH_DOCUMENT", " */", 3),
   ("CONST_FILEPATH_EQUALS_DOCUMENT", "const FILEPATH = ", 17),
   ("SEMICOLON_DOCUMENT", ";", 1),
   ("FUNCTION_SPACE_DOCUMENT", "function ", 9),
   ("EXPORT_FUNCTION_SPACE_DOCUMENT", "export function ", 16),
   ("EXPORT_CONST_SPACE_DOCUMENT", "export const ", 13),
   ("SUPER_CALL_SEMICOLON_DOCUMENT", "super();", 8),
   ("CONSTRUCTOR_OPEN_PAREN_DOCUMENT", "constructor(", 12),
   ("CLOSE_PAREN_SPACE_OPEN_CURLY_DOCUMENT", ") {", 3),
   ("THIS_DOT_DOCUMENT", "this.", 5),
   ("THIS_OPEN_SQUARE_DOCUMENT", "this[", 5),
   ("CLOSE_SQUARE_SPACE_EQUAL_SPACE_DOCUMENT", "] = ", 4),
   ("SPACE_EXTENDS_CUSTOM_TYPE_OPEN_CURLY_DOCUMENT", " extends $CustomType {", 22),
   ("CLASS_SPACE_DOCUMENT", "class ", 6),
   ("EXPORT_CLASS_SPACE_DOCUMENT", "export class ", 13),
   ("VALUE_DOT_DOCUMENT", "value.", 6),
   ("SPACE_EQUAL_SPACE_VALUE_SPACE_ARROW", " = (value) =>", 13),
   ("SPACE_EQUAL_OPEN_CLOSE_PAREN_SPACE_ARROW_DOCUMENT", " = () =>", 8),
   ("CLOSE_PAREN_SEMICOLON_DOCUMENT", ");", 2),
   ("NEW_SPACE_DOCUMENT", "new ", 4),
   ("VALUE_OPEN_SQUARE_DOCUMENT", "value[", 6),
   ("CLOSE_SQUARE_SEMICOLON_DOCUMENT", "];", 2),
   ("DOLLAR_IS_DOCUMENT", "$is", 3),
   ("VALUE_INSTANCE_OF_SPACE_DOCUMENT", "value instanceof ", 17),
   ("DOLLAR_DOCUMENT", "$", 1),
   ("CLOSE_PAREN_ARROW_DOCUMENT", ") =>", 4),
   ("CLOSE_PAREN_SLIM_ARROW_DOCUMENT", ") ->", 4),
   ("SPACE_EQUAL_SPACE_OPEN_PAREN_DOCUMENT", " = (", 4),
   ("DOLLAR_CONST_SEMICOLON_DOCUMENT", "$const;", 7),
   ("DOLLAR_CONST_DOCUMENT", "$const", 6),
   ("OPEN_CLOSE_PAREN_SEMICOLON_DOCUMENT", "();", 3),
   ("EXPORT_SPACE_OPEN_CLOSE_CURLY_DOCUMENT", "export {}", 9),
   ("EXPORT_SPACE_OPEN_CURLY_DOCUMENT", "export {", 8),
   ("EXPORT_TYPE_SPACE_OPEN_CURLY_DOCUMENT", "export type {", 13),
   ("DOT_MJS_DOT_MAP_DOCUMENT", ".mjs.map", 8),
   ("DOT_D_DOT_MTS_CLOSE_QUOTE_CLOSE_TAG_DOCUMENT", ".d.mts\" />", 10),
   ("SOURCE_MAPPING_URL_EQUAL_DOCUMENT", "//# sourceMappingURL=", 21),
   ("REFERENCE_TYPES_DOCUMENT", "/// <reference types=\"./", 24),
   ("CLOSE_CURLY_SEMICOLON_DOCUMENT", "};", 2),
   ("TIMES_SPACE_AS_SPACE_DOCUMENT", "* as ", 5),
   ("SPACE_FROM_SPACE_DOUBLE_QUOTE_DOCUMENT", " from \"", 7),
   ("DOUBLE_QUOTE_SEMICOLON_DOCUMENT", "\";", 2),
   ("CLOSE_CURLY_SPACE_FROM_SPACE_DOUBLE_QUOTE_DOCUMENT", "} from \"", 8),
   ("EXPORT_TYPE_SPACE_DOCUMENT", "export type ", 12),
   ("X_DOCUMENT", "x", 1),
   ("ANY_DOCUMENT", "any", 3),
   ("EXPORT_SPACE_DOCUMENT", "export ", 7),
   ("DECLARE_SPACE_DOCUMENT", "declare ", 8),
   ("SPACE_EXTENDS_UNDERSCORE_CUSTOM_TYPE_DOCUMENT", " extends _.CustomType {", 23),
   ("CONSTRUCTOR_DOCUMENT", "constructor", 11),
   ("DEPRECATED_MULTILINE_COMMENT_DOCUMENT", "/** @deprecated */", 18),
   ("CLOSE_PAREN_COLON_SPACE_DOCUMENT", "): ", 3),
   ("VALUE_COLON_SPACE", "value: ", 7),
   ("VALUE_COLON_SPACE_ANY_DOCUMENT", "value: any", 10),
   ("CLOSE_PAREN_COLON_SPACE_VALUE_IS_SPACE_DOCUMENT", "): value is ", 12),
   ("LT_INT_UNKNOWN_DOCUMENT", "<unknown", 8),
   ("COMMA_SPACE_UNKNOWN_DOCUMENT", ", unknown", 9),
   ("VALUE_COLON_SPACE_DOCUMENT", "value: ", 7),
   ("UNDEFINED_DOCUMENT", "undefined", 9),
   ("NUMBER_DOCUMENT", "number", 6),
   ("UNDERSCORE_DOT_UTF_CODEPOINT_DOCUMENT", "_.UtfCodepoint", 14),
   ("STRING_DOCUMENT", "string", 6),
   ("BOOLEAN_DOCUMENT", "boolean", 7),
   ("UNDERSCORE_DOT_BIT_ARRAY_DOCUMENT", "_.BitArray", 10),
   ("UNDERSCORE_DOT_LIST_DOCUMENT", "_.List", 6),
   ("UNDERSCORE_DOT_RESULT_DOCUMENT", "_.Result", 8),
   ("SPACE_EQUAL_RIGHT_ARROW_SPACE_DOCUMENT", " => ", 4),
   ("IF_SPACE_OPEN_PAREN_DOCUMENT", "if (", 4),
   ("CLOSE_PAREN_SPACE_DOCUMENT", ") ", 2),
   ("DOUBLE_CLOSE_PAREN_SPACE_DOCUMENT", ")) ", 3),
   ("IF_SPACE_OPEN_PAREN_EXCLAMATION_OPEN_PAREN_DOCUMENT", "if (!(", 6),
   ("SPACE_ELSE_SPACE_DOCUMENT", " else ", 6),
   ("DOT_CHAR_CODE_AT_ZERO_DOCUMENT", ".charCodeAt(0)", 14),
   ("SPACE_TRIPLE_EQUAL_SPACE_DOCUMENT", " === ", 5),
   ("TRIPLE_EQUAL_DOCUMENT", "===", 3),
   ("DOT_STARTS_WITH_OPEN_PAREN_DOCUMENT", ".startsWith(", 12),
   ("ZERO_DOCUMENT", "0", 1),
   ("DOT_BIT_SIZE_MODULO_8_DOCUMENT", ".bitSize % 8", 12),
   ("DOT_BIT_SIZE_MINUS_SPACE_DOCUMENT", ".bitSize - ", 11),
   ("DOT_BIT_SIZE_DOCUMENT", ".bitSize", 8),
   ("CLOSE_PAREN_MODULO_8_DOCUMENT", ") % 8", 5),
   ("SPACE_GT_EQ_ZERO_DOCUMENT", " >= 0", 5),
   ("SPACE_GT_EQ_SPACE_DOCUMENT", " >= ", 4),
   ("GLOBAL_THIS_DOT_NUMBER_DOT_IS_FINITE_OPEN_PAREN_DOCUMENT", "globalThis.Number.isFinite(", 27),
   ("SPACE_INSTANCE_OF_SPACE_DOCUMENT", " instanceof ", 12),
   ("SPACE_INSTANCE_OF_NON_EMPTY_DOCUMENT", " instanceof $NonEmpty", 21),
   ("SPACE_INSTANCE_OF_EMPTY_DOCUMENT", " instanceof $Empty", 18),
   ("DOT_BYTE_AT_OPEN_PAREN_DOCUMENT", ".byteAt(", 8),
   ("COMMA_SPACE_DOCUMENT", ", ", 2),
   ("BIT_ARRAY_SLICE_TO_INT_OPEN_PAREN_DOCUMENT", "bitArraySliceToInt(", 19),
   ("BIT_ARRAY_SLICE_TO_FLOAT_OPEN_PAREN_DOCUMENT", "bitArraySliceToFloat(", 21),
   ("BIT_ARRAY_SLICE_OPEN_PAREN_DOCUMENT", "bitArraySlice(", 14),
   ("RETURN_SPACE_DOCUMENT", "return ", 7),
   ("SPACE_EQUAL_LOOP_DOLLAR_DOCUMENT", " = loop$", 8),
   ("WHILE_TRUE_OPEN_PAREN_DOCUMENT", "while (true) {", 14),
   ("DOLLAR_LIST_DOLLAR_EMPTY_DOLLAR_CONST_DOCUMENT", "$List$Empty$const", 17),
   ("SIZED_INT_OPEN_PAREN_DOCUMENT", "sizedInt(", 9),
   ("SIZED_FLOAT_OPEN_PAREN_DOCUMENT", "sizedFloat(", 11),
   ("STRING_BITS_OPEN_PAREN_DOCUMENT", "stringBits(", 11),
   ("STRING_TO_UTF16_OPEN_PAREN_DOCUMENT", "stringToUtf16(", 14),
   ("STRING_TO_UTF32_OPEN_PAREN_DOCUMENT", "stringToUtf32(", 14),
   ("CODEPOINT_TO_UTF16_OPEN_PAREN_DOCUMENT", "codepointToUtf16(", 17),
   ("CODEPOINT_TO_UTF32_OPEN_PAREN_DOCUMENT", "codepointToUtf32(", 17),
   ("TO_BIT_ARRAY_OPEN_PAREN_DOCUMENT", "toBitArray(", 11),
   ("COMMA_ZERO_COMMA_SPACE", ", 0, ", 5),
   ("THROW_MAKE_ERROR_DOCUMENT", "throw makeError", 15),
   ("FILEPATH_UPPERCASE_DOCUMENT", "FILEPATH", 8),
   ("SPACE_EQUAL_ARROW_SPACE_OPEN_CURLY_DOCUMENT", " => {", 5),
   ("INFINITY_DOCUMENT", "Infinity", 8),
   ("MINUS_INFINITY_DOCUMENT", "-Infinity", 9),
   ("NAN_DOCUMENT", "NaN", 3),
   ("TO_LIST_OPEN_PAREN_DOCUMENT", "toList(", 7),
   ("LIST_PREPEND_DOCUMENT", "listPrepend", 11),
   ("CLOSE_CURLY_CLOSE_PAREN_OPEN_CLOSE_PAREN_DOCUMENT", "})()", 4),
   ("OPEN_PAREN_OPEN_CLOSE_PAREN_EQUAL_ARROW_OPEN_CURLY_DOCUMENT", "(() => {", 8),
   ("CODEPOINT_BITS_OPEN_PAREN_DOCUMENT", "codepointBits(", 14),
   ("CLOSE_CURLY_ELSE_OPEN_CURLY_DOCUMENT", "} else {", 8),
   ("EXCLAMATION_MARK_OPEN_PAREN_DOCUMENT", "!(", 2),
   ("SPACE_DOUBLE_VERTICAL_BAR_SPACE_DOCUMENT", " || ", 4),
   ("SPACE_DOUBLE_AMPERSAND_SPACE_DOCUMENT", " && ", 4),
   ("LOOP_DOLLAR_DOCUMENT", "loop$", 5),
   ("DIVIDE_INT_DOCUMENT", "divideInt", 9),
   ("DIVIDE_FLOAT_DOCUMENT", "divideFloat", 9),
   ("GLOBAL_THIS_DOT_MATH_DOT_TRUNC_DOCUMENT", "globalThis.Math.trunc", 21),
   ("SPACE_MODULO_SPACE_DOCUMENT", " % ", 3),
   ("SPACE_EXCLAMATION_MARK_DOUBLE_EQUAL_SPACE_DOCUMENT", " !== ", 5),
   ("EXCLAMATION_MARK_DOUBLE_EQUAL_DOCUMENT", "!==", 3),
   ("IS_EQUAL_DOCUMENT", "isEqual", 7),
   ("EXCLAMATION_MARK_IS_EQUAL_DOCUMENT", "!isEqual", 8),
   ("SPACE_LT_INT_SPACE_DOCUMENT", " < ", 3),
   ("SPACE_LT_EQ_INT_SPACE_DOCUMENT", " <= ", 4),
   ("SPACE_GT_INT_SPACE_DOCUMENT", " > ", 3),
   ("SPACE_GT_EQ_INT_SPACE_DOCUMENT", " >= ", 4),
   ("CAMEL_CASE_REMAINDER_INT_DOCUMENT", "remainderInt", 12),
   ("PURE_JAVASCRIPT_COMMENT_DOCUMENT", "/* @__PURE__ */ ", 16),
   ("LOWERCASE_ARG_DOCUMENT", "arg", 3),
   ("PUB_TYPE_SPACE_DOCUMENT", "pub type ", 9),
   ("PUB_FN_SPACE_DOCUMENT", "pub fn ", 7),
   ("PUB_CONST_SPACE_DOCUMENT", "pub const ", 10),
   ("PUB_OPAQUE_TYPE_SPACE_DOCUMENT", "pub opaque type ", 16),
   ("FN_OPEN_PAREN_DOCUMENT", "fn(", 3)]

/-- `lib.rs:959-970` `const_break!`. -/
def constBreaks : List (String × String × String) :=
  [("EMPTY_BREAK_DOCUMENT", "", ""),
   ("BREAKABLE_SPACE_DOCUMENT", "", " "),
   ("COMMA_BREAK_DOCUMENT", ",", ", "),
   ("TRAILING_COMMA_BREAK_DOCUMENT", ",", ""),
   ("TRAILING_COMMA_OR_SPACE_BREAK_DOCUMENT", ",", " "),
   ("OPEN_CURLY_BREAK_DOCUMENT", "{", "{ "),
   ("OPEN_SQUARE_BREAK_DOCUMENT", "[", "["),
   ("OPEN_PAREN_BREAK_DOCUMENT", "(", "("),
   ("OPEN_TUPLE_BREAK_DOCUMENT", "#(", "#("),
   ("OPEN_BIT_ARRAY_BREAK_DOCUMENT", "<<", "<<"),
   ("CASE_BREAK_DOCUMENT", "case", "case "),
   ("SPACE_DOUBLE_AMPERSAND_BREAK_DOCUMENT", " &&", " && ")]

end Verif.Pretty
